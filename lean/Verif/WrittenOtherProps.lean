import Verif.BodyProps
import Verif.DateProps
import Verif.WrittenOtherModel
import Verif.WrittenProps

/-!
# Other tests as they are written: from the arguments in the script to the result

The results of `date`, `currentdate`, `body`, `duplicate`, `spamtest`, `virustest`, `metadata`, `servermetadata` and
`notify_method_capability`, and those of `:count` and `:list`, in terms of the tags and arguments that are written in the
script (RFC 5173, 5231, 5235, 5260, 5435, 5490, 6134 and 7352).
-/

namespace Sieve.Written

open Sieve.Args Sieve.Fields

variable {F N : Type}

/-! ## Specification -/

/-- The parts of a date by their names (RFC 5260, 4.2). -/
inductive DateName : String → Tests.DatePart → Prop where
  | year : DateName "year" .year
  | month : DateName "month" .month
  | day : DateName "day" .day
  | date : DateName "date" .date
  | julian : DateName "julian" .julian
  | hour : DateName "hour" .hour
  | minute : DateName "minute" .minute
  | second : DateName "second" .second
  | time : DateName "time" .time
  | iso8601 : DateName "iso8601" .iso8601
  | std11 : DateName "std11" .std11
  | zone : DateName "zone" .zone
  | weekday : DateName "weekday" .weekday

/-- The date in the zone that is asked for; without `:zone` and `:originalzone` in that of the server, which is UTC. -/
inductive Moved (e : Tests.DateExt) (g : Got F) (d : Tests.DateTime) : Tests.DateTime → Prop where
  | zone {z} : (.Zone, .zone z) ∈ g.tags → Moved e g d (e.toZone d z)
  | original : Uses g .OriginalZone → Moved e g d d
  | default : ¬ Uses g .Zone → ¬ Uses g .OriginalZone → Moved e g d (e.utc d)

/-- The current date, in the zone that is asked for. -/
inductive Now (o : OtherEnv F) (g : Got F) : Tests.DateTime → Prop where
  | zone {z} : (.Zone, .zone z) ∈ g.tags → Now o g (o.dates.toZone (o.dates.ofTime o.now) z)
  | default : ¬ Uses g .Zone → Now o g (o.dates.ofTime o.now)

/-- What of the body is looked at (RFC 5173, 5). -/
inductive Asked (env : Env F N) (g : Got F) : Body.Transform F → Prop where
  | raw : Uses g .Raw → Asked env g .raw
  | text : Uses g .Text → Asked env g .text
  | content {vs} : (.Content, .vals vs) ∈ g.tags → Asked env g (.content (vs.map env.eval))
  | default : (∀ w ∈ [Word.Raw, .Text, .Content], ¬ Uses g w) → Asked env g .text

/-- The subject, where `:subject` is written. -/
inductive SubjectIs (o : OtherEnv F) (g : Got F) : Tests.Str → Prop where
  | raw : Uses g .Subject → Uses g .Raw → SubjectIs o g o.rawSubject
  | text : Uses g .Subject → ¬ Uses g .Raw → SubjectIs o g o.subject

/-- The id that `duplicate` tracks (RFC 7352, 3.1). -/
inductive DupId [DecidableEq N] (env : Env F N) (o : OtherEnv F) (g : Got F) (t : Mime.Tree) (i : Tests.Str) : Prop where
  | header {w n before f after} : (.Header, .val w) ∈ g.tags → env.headerName (Tests.text env.x.flt (env.eval w)) = some n →
      Tests.fieldsCalled env.parts t.preorder n = before ++ f :: after → Tests.FieldId env.x o.parseId f i →
      (∀ f' ∈ before, ∀ j, ¬ Tests.FieldId env.x o.parseId f' j) → DupId env o g t i
  | uniqueId {w} : (.UniqueId, .val w) ∈ g.tags → i = Tests.text env.x.flt (env.eval w) → i ≠ [] → DupId env o g t i
  | default : ¬ Uses g .Header → ¬ Uses g .UniqueId → o.messageId = some i → i ≠ [] → DupId env o g t i

/-- `:count "n"` is written, and `n` is the name of the relation. -/
def Counting (g : Got F) (r : Tests.Rel) : Prop := ∃ n, (.Count, .text (bytes n)) ∈ g.tags ∧ RelName n r

/-! ## What is written is what is executed -/

theorem ite_some {α : Type} {p : Prop} [Decidable p] {a b : α} {o : Option α} (h : (if p then some a else o) = some b) :
    (p ∧ a = b) ∨ o = some b := by
  by_cases hp : p
  · rw [if_pos hp] at h
    exact .inl ⟨hp, by injection h⟩
  · rw [if_neg hp] at h
    exact .inr h

theorem datePartOf_iff (s : List UInt8) (dp : Tests.DatePart) : datePartOf s = some dp ↔ ∃ n, DateName n dp ∧ s = bytes n := by
  constructor
  · unfold datePartOf
    intro h
    rcases ite_some h with ⟨h1, rfl⟩ | h
    · exact ⟨_, .year, h1⟩
    rcases ite_some h with ⟨h1, rfl⟩ | h
    · exact ⟨_, .month, h1⟩
    rcases ite_some h with ⟨h1, rfl⟩ | h
    · exact ⟨_, .day, h1⟩
    rcases ite_some h with ⟨h1, rfl⟩ | h
    · exact ⟨_, .date, h1⟩
    rcases ite_some h with ⟨h1, rfl⟩ | h
    · exact ⟨_, .julian, h1⟩
    rcases ite_some h with ⟨h1, rfl⟩ | h
    · exact ⟨_, .hour, h1⟩
    rcases ite_some h with ⟨h1, rfl⟩ | h
    · exact ⟨_, .minute, h1⟩
    rcases ite_some h with ⟨h1, rfl⟩ | h
    · exact ⟨_, .second, h1⟩
    rcases ite_some h with ⟨h1, rfl⟩ | h
    · exact ⟨_, .time, h1⟩
    rcases ite_some h with ⟨h1, rfl⟩ | h
    · exact ⟨_, .iso8601, h1⟩
    rcases ite_some h with ⟨h1, rfl⟩ | h
    · exact ⟨_, .std11, h1⟩
    rcases ite_some h with ⟨h1, rfl⟩ | h
    · exact ⟨_, .zone, h1⟩
    rcases ite_some h with ⟨h1, rfl⟩ | h
    · exact ⟨_, .weekday, h1⟩
    cases h
  · rintro ⟨n, hn, rfl⟩
    cases hn <;> decide +kernel

theorem datePart_named {n : String} (h : n ∈ dateParts) : ∃ dp, DateName n dp := by
  simp only [dateParts, List.mem_cons, List.not_mem_nil, or_false] at h
  rcases h with rfl | rfl | rfl | rfl | rfl | rfl | rfl | rfl | rfl | rfl | rfl | rfl | rfl <;> exact ⟨_, by constructor⟩

section
variable {g : Got F} {m : MatchType} {c : Fields.Comparator}

theorem count_of (h : Compares g m c) {r : Tests.Rel} (hr : Counting g r) (cp : Nat) : matchOf cp m = .count r := by
  obtain ⟨n, ht, hn⟩ := hr
  have := h.matchType.given _ _ ht (by simp)
  generalize ha : (.text (bytes n) : Arg F) = a at this
  cases this with
  | count hn' =>
    injection ha with ha
    rw [matchOf, ← rel_name hn hn' ha.symm]

theorem list_of (h : Compares g m c) (hl : Uses g .List) (cp : Nat) : matchOf cp m = .list := by
  obtain ⟨a, ha⟩ := hl
  cases h.matchType.given _ _ ha (by simp)
  rfl

theorem not_count_of (h : Compares g m c) (hg : ¬ Uses g .Count) (cp : Nat) (r : Tests.Rel) : matchOf cp m ≠ .count r := by
  rcases stored_used h.matchType with ⟨w, -, a, ht, hm⟩ | ⟨-, rfl⟩
  · cases hm <;> first | (intro h; cases h; done) | exact (hg ⟨_, ht⟩).elim
  · intro h; cases h

theorem not_regex_of (h : Compares g m c) (hg : ¬ Uses g .Regex) (cp cp' : Nat) : matchOf cp m ≠ .regex cp' := by
  rcases stored_used h.matchType with ⟨w, -, a, ht, hm⟩ | ⟨-, rfl⟩
  · cases hm <;> first | (intro h; cases h; done) | exact (hg ⟨_, ht⟩).elim
  · intro h; cases h

end

theorem moved_iff {g : Got F} {z : Fields.Zone} (hz : Stores g [.OriginalZone, .Zone] ZoneMeans .server z)
    (e : Tests.DateExt) (d d' : Tests.DateTime) : Tests.InZone e d (zoneOf z) d' ↔ Moved e g d d' := by
  rw [Tests.inZone_iff]
  constructor
  · rintro rfl
    rcases stored_used hz with ⟨w, -, a, ht, hm⟩ | ⟨hn, rfl⟩
    · cases hm with
      | zone => exact .zone ht
      | original => exact .original ⟨_, ht⟩
    · exact .default (hn _ (by simp)) (hn _ (by simp))
  · rintro (ht | ⟨_, ht⟩ | ⟨h1, h2⟩)
    · cases hz.given _ _ ht (by simp); rfl
    · cases hz.given _ _ ht (by simp); rfl
    · rw [hz.default (by simp only [List.mem_cons, List.not_mem_nil, or_false]; rintro w (rfl | rfl); exacts [h2, h1])]
      rfl

/-! ## C119: dates -/

/-- C119: a `date` test that is written with the arguments `g` is true exactly if the requested part of a date in a header
field it is about, in the requested zone, meets one of its keys.  Not for `:regex`, which is treated as `:matches`, and not
for the Julian day of days before 17 November 1858 (C74). -/
theorem date_written_partial [DecidableEq N] (y : Args.Ext F) (has : Cap → Bool) {e : Entry} (he : testEntry .Date = some e)
    {ts : List (Tok F)} {g : Got F} {r : List (Tok F)} (h : readEntry y has .Date e ts = some (g, r)) :
    ∃ i w part ks n dp, Date.of g = some i ∧ g.pos = [.val w, .text part, .vals ks] ∧ DateName n dp ∧ lower part = bytes n ∧
      ∀ (env : Env F N) (o : OtherEnv F) (t : Mime.Tree) (isNot : Bool) (cp fuel : Nat), env.x.Ok →
        Mime.Represents env.parts t → env.part = t.id → t.preorder.length < fuel → Comparing g → ¬ Uses g .Regex →
        (∀ hd d d', Seen env g t [w] hd → Tests.FieldDate env.x o.dates hd.value d → Moved o.dates g d d' → dp = .julian →
          2400001 ≤ o.dates.julian d') →
        (cp ≠ 0 → ∀ hd d d' s, Seen env g t [w] hd → Tests.FieldDate env.x o.dates hd.value d → Moved o.dates g d d' →
          Tests.Shows o.dates d' dp s → Letterwise env.x s) →
        ∃ b caps, date env o isNot cp fuel i = some ⟨.bool (b ^^ isNot), caps⟩ ∧
          (b = true ↔ ∃ hd, Seen env g t [w] hd ∧ ∃ d d' s, Tests.FieldDate env.x o.dates hd.value d ∧
            Moved o.dates g d d' ∧ Tests.Shows o.dates d' dp s ∧ ∃ k ∈ ks, Meets env.x g (.text s) (.val (env.eval k))) := by
  obtain ⟨i, part, hi, hp, ⟨n, hn, hl, hn'⟩, hc, hx, hz, ha⟩ := date_fields y has he h
  obtain ⟨dp, hdp⟩ := datePart_named hn
  refine ⟨i, _, _, _, n, dp, hi, hp, hdp, hl, ?_⟩
  intro env o t isNot cp fuel ok ht hpart hf hg hr hj hv
  have hd : datePartOf i.part = some dp := (datePartOf_iff _ _).2 ⟨n, hdp, hn'⟩
  have look : ∀ nm hd, nameOf env i.header = some nm →
      (Tests.Looked env.parts (Tests.searched i.anyChild t) [nm] i.index hd ↔ Seen env g t [i.header] hd) := by
    intro nm hd hnm
    have := looked_iff (env := env) ha hx t [i.header] hd
    rw [List.filterMap_cons_some hnm, List.filterMap_nil] at this
    exact this
  obtain ⟨b, caps, h1, h2⟩ := Tests.date_test_partial ok o.dates isNot (comparatorOf i.comparator) (matchOf cp i.matchType)
    (comparing_of hc hg cp) (not_regex_of hc hr cp) (zoneOf i.zone) dp env.parts t ht (nameOf env i.header) i.index i.anyChild
    fuel hf (i.keys.map env.eval)
    (fun nm hd hnm hlk d d' hfd hz' => hj hd d d' ((look nm hd hnm).1 hlk) hfd ((moved_iff hz _ _ _).1 hz'))
    (fun nm hd s hnm hlk hdv => by
      obtain ⟨d, d', h3, h4, h5⟩ := hdv
      exact charwise_of (fun h0 => hv h0 hd d d' s ((look nm hd hnm).1 hlk) h3 ((moved_iff hz _ _ _).1 h4) h5) _ _)
  refine ⟨b, caps, by unfold date; rw [hd, hpart]; exact h1, h2.trans ?_⟩
  constructor
  · rintro ⟨nm, hd, s, hnm, h3, ⟨d, d', h4, h5, h6⟩, k, h7, h8⟩
    obtain ⟨k, h9, rfl⟩ := List.mem_map.1 h7
    exact ⟨hd, (look nm hd hnm).1 h3, d, d', s, h4, (moved_iff hz _ _ _).1 h5, h6, k, h9, (meets_iff hc _ _ _ _).1 h8⟩
  · rintro ⟨hd, h3, d, d', s, h4, h5, h6, k, h7, h8⟩
    obtain ⟨nm, hnm⟩ : ∃ nm, nameOf env i.header = some nm := by
      obtain ⟨_, _, _, _, w, hw, nm, hnm, _⟩ := h3
      rw [List.mem_singleton] at hw
      subst hw
      exact ⟨nm, hnm⟩
    exact ⟨nm, hd, s, hnm, (look nm hd hnm).2 h3, ⟨d, d', h4, (moved_iff hz _ _ _).2 h5, h6⟩, _, List.mem_map_of_mem h7,
      (meets_iff hc _ _ _ _).2 h8⟩

/-- C119: `currentdate`, with the same exceptions. -/
theorem currentdate_written_partial (y : Args.Ext F) (has : Cap → Bool) {e : Entry}
    (he : testEntry .CurrentDate = some e) {ts : List (Tok F)} {g : Got F} {r : List (Tok F)}
    (h : readEntry y has .CurrentDate e ts = some (g, r)) :
    ∃ i part ks n dp, CurrentDate.of g = some i ∧ g.pos = [.text part, .vals ks] ∧ DateName n dp ∧ lower part = bytes n ∧
      ∀ (env : Env F N) (o : OtherEnv F) (isNot : Bool) (cp : Nat), env.x.Ok → Comparing g → ¬ Uses g .Regex →
        (∀ d, Now o g d → dp = .julian → 2400001 ≤ o.dates.julian d) →
        (cp ≠ 0 → ∀ d s, Now o g d → Tests.Shows o.dates d dp s → Letterwise env.x s) →
        ∃ b caps, currentdate env o isNot cp i = some ⟨.bool (b ^^ isNot), caps⟩ ∧
          (b = true ↔ ∃ d s, Now o g d ∧ Tests.Shows o.dates d dp s ∧
            ∃ k ∈ ks, Meets env.x g (.text s) (.val (env.eval k))) := by
  obtain ⟨i, part, hi, hp, ⟨n, hn, hl, hn'⟩, hc, hz⟩ := currentdate_fields y has he h
  obtain ⟨dp, hdp⟩ := datePart_named hn
  refine ⟨i, _, _, n, dp, hi, hp, hdp, hl, ?_⟩
  intro env o isNot cp ok hg hr hj hv
  have hd : datePartOf i.part = some dp := (datePartOf_iff _ _).2 ⟨n, hdp, hn'⟩
  obtain ⟨d, hd1, hd2, hd3⟩ : ∃ d, ((i.zone = none ∧ d = o.dates.ofTime o.now) ∨
      ∃ tz, i.zone = some tz ∧ Tests.InZone o.dates (o.dates.ofTime o.now) (.time tz) d) ∧ Now o g d ∧
      ∀ d', Now o g d' → d' = d := by
    have hzi := (zone_iff hz _).2 rfl
    cases hzz : i.zone with
    | none =>
      rw [hzz] at hzi
      cases hzi with
      | none hno =>
        refine ⟨_, .inl ⟨rfl, rfl⟩, .default hno, fun d' h => ?_⟩
        cases h with
        | zone ht => exact absurd ⟨_, ht⟩ hno
        | default => rfl
    | some z =>
      rw [hzz] at hzi
      cases hzi with
      | zone hyes =>
        refine ⟨_, .inr ⟨z, rfl, .time⟩, .zone hyes, fun d' h => ?_⟩
        cases h with
        | zone ht =>
          have := (zone_iff hz _).1 (.zone ht)
          rw [hzz] at this
          cases this
          rfl
        | default hno => exact absurd ⟨_, hyes⟩ hno
  obtain ⟨b, caps, h1, h2⟩ := Tests.currentdate_test_partial ok o.one o.dates o.now i.zone dp isNot (comparatorOf i.comparator)
    (matchOf cp i.matchType) (comparing_of hc hg cp) (not_regex_of hc hr cp) (i.keys.map env.eval) d hd1 (hj d hd2)
    (fun s hs => charwise_of (fun h0 => hv h0 d s hd2 hs) _ _)
  refine ⟨b, caps, by unfold currentdate; rw [hd, Option.map_some, h1], h2.trans ?_⟩
  constructor
  · rintro ⟨s, h3, k, h7, h8⟩
    obtain ⟨k, h9, rfl⟩ := List.mem_map.1 h7
    exact ⟨d, s, hd2, h3, k, h9, (meets_iff hc _ _ _ _).1 h8⟩
  · rintro ⟨d', s, h3, h4, k, h7, h8⟩
    obtain rfl := hd3 d' h3
    exact ⟨s, h4, _, List.mem_map_of_mem h7, (meets_iff hc _ _ _ _).2 h8⟩

/-! ## C119: body -/

theorem asked_iff {env : Env F N} {g : Got F} {tr : BodyTransform F}
    (h : Stores g [.Raw, .Text, .Content] BodyMeans .text tr) (tr' : Body.Transform F) :
    Asked env g tr' ↔ tr' = transformOf env tr := by
  constructor
  · rintro (⟨_, ht⟩ | ⟨_, ht⟩ | ht | hn)
    · cases h.given _ _ ht (by simp); rfl
    · cases h.given _ _ ht (by simp); rfl
    · cases h.given _ _ ht (by simp); rfl
    · rw [h.default hn]; rfl
  · rintro rfl
    rcases stored_used h with ⟨w, -, a, ht, hm⟩ | ⟨hn, rfl⟩
    · cases hm with
      | raw => exact .raw ⟨_, ht⟩
      | text => exact .text ⟨_, ht⟩
      | content => exact .content ht
    · exact .default hn

theorem subject_iff {o : OtherEnv F} {g : Got F} {tr : BodyTransform F} {b : Bool}
    (h : Stores g [.Raw, .Text, .Content] BodyMeans .text tr) (hs : Stores g [.Subject] Flag false b) (s : Tests.Str) :
    SubjectIs o g s ↔ subjectOf o b tr = some s := by
  have hb := flag_iff hs
  have hr : Uses g .Raw ↔ tr = .raw := by
    constructor
    · rintro ⟨_, ht⟩
      cases h.given _ _ ht (by simp); rfl
    · rintro rfl
      rcases stored_used h with ⟨w, -, a, ht, hm⟩ | ⟨-, hd⟩
      · cases hm; exact ⟨_, ht⟩
      · cases hd
  constructor
  · rintro (⟨h1, h2⟩ | ⟨h1, h2⟩)
    · rw [hb.2 h1, hr.1 h2]; rfl
    · rw [hb.2 h1]
      rw [hr] at h2
      cases tr <;> first | rfl | exact absurd rfl h2
  · intro h1
    cases b with
    | false => cases tr <;> cases h1
    | true =>
      cases tr with
      | raw => cases h1; exact .raw (hb.1 rfl) (hr.2 rfl)
      | text => cases h1; exact .text (hb.1 rfl) (by rw [hr]; simp)
      | content => cases h1; exact .text (hb.1 rfl) (by rw [hr]; simp)

/-- C119: a `body` test that is written with the arguments `g` is true exactly if the subject, with `:subject`, or a text
of one of the parts that are asked for meets one of its keys.  The content types have to be proper (C66). -/
theorem body_written_partial (y : Args.Ext F) (has : Cap → Bool) {e : Entry} (he : testEntry .Body = some e)
    {ts : List (Tok F)} {g : Got F} {r : List (Tok F)} (h : readEntry y has .Body e ts = some (g, r)) :
    ∃ i ks, Body.of g = some i ∧ g.pos = [.vals ks] ∧
      ∀ (env : Env F N) (o : OtherEnv F) (isNot : Bool) (cp : Nat), env.x.Ok → Comparing g → Body.Forward o.msg →
        (∀ tr, Asked env g tr → tr.Proper env.x) →
        ∃ b n, (∀ fuel, n ≤ fuel → body env o isNot cp fuel i = some (b ^^ isNot)) ∧
          (b = true ↔ (∃ s, SubjectIs o g s ∧ ∃ k ∈ ks, Meets env.x g (.text s) (.val (env.eval k))) ∨
            ∃ tr m p s, Asked env g tr ∧ Body.Inside o.msg env.part m p ∧ Body.Selected env.x p tr ∧
              Body.Reads env.x o.lib m.raw tr p s ∧ ∃ k ∈ ks, Meets env.x g (.text s) (.val (env.eval k))) := by
  obtain ⟨i, hi, hp, hc, htr, hsub⟩ := body_fields y has he h
  refine ⟨i, _, hi, hp, ?_⟩
  intro env o isNot cp ok hg hfw hprop
  have hask := (asked_iff (env := env) htr _).2 rfl
  obtain ⟨b, n, h1, h2⟩ := Body.body_test_partial ok o.lib isNot (comparatorOf i.comparator) (matchOf cp i.matchType)
    (comparing_of hc hg cp) (transformOf env i.body) (hprop _ hask) (subjectOf o i.subject i.body) hfw env.part
    (i.keys.map env.eval)
  have keys : ∀ s, (∃ k ∈ i.keys.map env.eval, Tests.Holds env.x (comparatorOf i.comparator) (matchOf cp i.matchType) (.text s) (.val k)) ↔
      ∃ k ∈ i.keys, Meets env.x g (.text s) (.val (env.eval k)) := by
    intro s
    constructor
    · rintro ⟨k, h3, h4⟩
      obtain ⟨k, h5, rfl⟩ := List.mem_map.1 h3
      exact ⟨k, h5, (meets_iff hc _ _ _ _).1 h4⟩
    · rintro ⟨k, h3, h4⟩
      exact ⟨_, List.mem_map_of_mem h3, (meets_iff hc _ _ _ _).2 h4⟩
  refine ⟨b, n, h1, h2.trans ?_⟩
  simp only [keys, ← subject_iff htr hsub]
  refine or_congr Iff.rfl ?_
  constructor
  · rintro ⟨m, p, s, h3, h4, h5, h6⟩
    exact ⟨_, m, p, s, hask, h3, h4, h5, h6⟩
  · rintro ⟨tr, m, p, s, h7, h3, h4, h5, h6⟩
    obtain rfl := (asked_iff htr tr).1 h7
    exact ⟨m, p, s, h3, h4, h5, h6⟩

/-! ## C119: duplicate -/

theorem dupId_iff [DecidableEq N] {env : Env F N} {o : OtherEnv F} {g : Got F} {d : Fields.DupMatch F}
    (h : Stores g [.Header, .UniqueId] DupMeans .messageId d) (t : Mime.Tree) (i : Tests.Str) :
    DupId env o g t i ↔ Tests.Tracked env.x o.parseId o.messageId (Tests.fieldsCalled env.parts t.preorder) (dupOf env d) i := by
  constructor
  · rintro (⟨ht, h1, h2, h3, h4⟩ | ⟨ht, h1, h2⟩ | ⟨h1, h2, h3, h4⟩)
    · cases h.given _ _ ht (by simp)
      have : dupOf env (.header _) = .header (some _) := congrArg Tests.DupMatch.header h1
      rw [this]
      exact ⟨_, _, _, h2, h3, h4⟩
    · cases h.given _ _ ht (by simp)
      exact ⟨h1, h2⟩
    · rw [h.default (by simp only [List.mem_cons, List.not_mem_nil, or_false]; rintro w (rfl | rfl) <;> assumption)]
      exact ⟨h3, h4⟩
  · intro htr
    rcases stored_used h with ⟨w, -, a, ht, hm⟩ | ⟨hn, rfl⟩
    · cases hm with
      | header v =>
        cases hnm : nameOf env v with
        | none =>
          have : dupOf env (.header v) = .header none := congrArg Tests.DupMatch.header hnm
          rw [this] at htr
          exact htr.elim
        | some n =>
          have : dupOf env (.header v) = .header (some n) := congrArg Tests.DupMatch.header hnm
          rw [this] at htr
          obtain ⟨before, f, after, h1, h2, h3⟩ := htr
          exact .header ht hnm h1 h2 h3
      | uniqueId v => exact .uniqueId ht htr.1 htr.2
    · exact .default (hn _ (by simp)) (hn _ (by simp)) htr.1 htr.2

/-- C119: `duplicate` asks the host about the id that the arguments say, and about nothing if there is none. -/
theorem duplicate_written [DecidableEq N] (y : Args.Ext F) (has : Cap → Bool) {e : Entry}
    (he : testEntry .Duplicate = some e) {ts : List (Tok F)} {g : Got F} {r : List (Tok F)}
    (h : readEntry y has .Duplicate e ts = some (g, r)) (env : Env F N) (o : OtherEnv F) (t : Mime.Tree) (isNot : Bool)
    (fuel : Nat) (ht : Mime.Represents env.parts t) (hp : env.part = t.id) (hf : t.preorder.length < fuel) :
    (∃ id q, DupId env o g t id ∧ duplicate env o isNot fuel (Duplicate.of g) = some (.ask q isNot) ∧
      (∀ v, (.Handle, .val v) ∈ g.tags → q.id = Tests.text env.x.flt (env.eval v) ++ id) ∧ (¬ Uses g .Handle → q.id = id) ∧
      (∀ s, (.Seconds, .num s) ∈ g.tags → q.expiry = s) ∧ (¬ Uses g .Seconds → q.expiry = o.expiry) ∧
      (q.last = true ↔ Uses g .Last)) ∨
    ((∀ id, ¬ DupId env o g t id) ∧ duplicate env o isNot fuel (Duplicate.of g) = some (.bool isNot)) := by
  obtain ⟨hh, hd, hs, hl⟩ := duplicate_fields y has he h
  have hti := fun i => dupId_iff (env := env) (o := o) hd t i
  rcases Tests.duplicate_test env.x o.parseId o.messageId env.parts t ht fuel hf (dupOf env (Duplicate.of g).dup)
    ((Duplicate.of g).handle.map env.eval) (Duplicate.of g).seconds o.expiry (Duplicate.of g).last isNot with
    ⟨id, h1, q, h2, h3, h4, h5, h6, h7⟩ | ⟨h1, h2⟩
  · refine .inl ⟨id, q, (hti id).2 h1, by unfold duplicate; rw [hp]; exact h2, ?_, ?_, ?_, ?_, ?_⟩
    · intro v hv
      obtain ⟨v', e1, e2⟩ := hh.given _ _ hv (by simp)
      injection e1 with e1
      subst e1
      exact h3 _ (by rw [e2]; rfl)
    · intro hv
      exact h4 (by rw [hh.default (by simpa using hv)]; rfl)
    · intro s hv
      obtain ⟨s', e1, e2⟩ := hs.given _ _ hv (by simp)
      injection e1 with e1
      subst e1
      exact h5 _ e2
    · intro hv
      exact h6 (hs.default (by simpa using hv))
    · rw [h7]; exact flag_iff hl
  · exact .inr ⟨fun id hid => h1 id ((hti id).1 hid), by unfold duplicate; rw [hp]; exact h2⟩

/-! ## C119: spamtest and virustest -/

/-- The number that `spamtest` compares (`Tests.Spam.number`, see `Tests.spam_range` and `Tests.spam_roundtrip`). -/
inductive SpamShown (env : Env F N) (o : OtherEnv F) (g : Got F) : Int → Prop where
  | percent : Uses g .Percent → SpamShown env o g (o.spam.percentage env.x.flt o.flt2)
  | number : ¬ Uses g .Percent → SpamShown env o g (o.spam.number env.x.flt o.flt2)

/-- C119: `spamtest` without `:count` and `:list`. -/
theorem spamtest_written (y : Args.Ext F) (has : Cap → Bool) {e : Entry} (he : testEntry .SpamTest = some e)
    {ts : List (Tok F)} {g : Got F} {r : List (Tok F)} (h : readEntry y has .SpamTest e ts = some (g, r)) :
    ∃ i v, SpamTest.of g = some i ∧ g.pos = [.val v] ∧
      ∀ (env : Env F N) (o : OtherEnv F) (isNot : Bool) (cp : Nat), env.x.Ok → Comparing g →
        (cp ≠ 0 → ∀ n : Int, Letterwise env.x (Tests.text env.x.flt (.int n))) →
        ∃ b caps, spamtest env o isNot cp i = ⟨.bool (b ^^ isNot), caps⟩ ∧
          (b = true ↔ ∃ n, SpamShown env o g n ∧ Meets env.x g (.val (.int n)) (.val (env.eval v))) := by
  obtain ⟨i, hi, hp, hc, hpc, -⟩ := spamtest_fields y has (.inl rfl) he h
  refine ⟨i, _, hi, hp, ?_⟩
  intro env o isNot cp ok hg hl
  obtain ⟨b, caps, h1, h2⟩ := (Tests.status_test ok o.flt2 o.spam o.virus i.percent isNot (comparatorOf i.comparator)
    (matchOf cp i.matchType) (not_count_of hc hg.1 cp) (env.eval i.value)
    (fun n => charwise_of (fun h0 => hl h0 n) _ _)).1
  have hb := flag_iff hpc
  refine ⟨b, caps, h1, h2.trans ?_⟩
  rw [meets_iff hc]
  cases hq : i.percent with
  | true =>
    rw [hq] at hb
    constructor
    · exact fun h => ⟨_, .percent (hb.1 rfl), h⟩
    · rintro ⟨n, h3 | h3, h4⟩
      · exact h4
      · exact absurd (hb.1 rfl) h3
  | false =>
    rw [hq] at hb
    constructor
    · exact fun h => ⟨_, .number (fun h => by cases hb.2 h), h⟩
    · rintro ⟨n, h3 | h3, h4⟩
      · cases hb.2 h3
      · exact h4

/-- C119: `virustest` without `:count` and `:list`. -/
theorem virustest_written (y : Args.Ext F) (has : Cap → Bool) {e : Entry} (he : testEntry .VirusTest = some e)
    {ts : List (Tok F)} {g : Got F} {r : List (Tok F)} (h : readEntry y has .VirusTest e ts = some (g, r)) :
    ∃ i v, SpamTest.of g = some i ∧ g.pos = [.val v] ∧
      ∀ (env : Env F N) (o : OtherEnv F) (isNot : Bool) (cp : Nat), env.x.Ok → Comparing g →
        (cp ≠ 0 → ∀ n : Int, Letterwise env.x (Tests.text env.x.flt (.int n))) →
        ∃ b caps, virustest env o isNot cp i = ⟨.bool (b ^^ isNot), caps⟩ ∧
          (b = true ↔ Meets env.x g (.val (.int o.virus.number)) (.val (env.eval v))) := by
  obtain ⟨i, hi, hp, hc, hpc, -⟩ := spamtest_fields y has (.inr rfl) he h
  refine ⟨i, _, hi, hp, ?_⟩
  intro env o isNot cp ok hg hl
  obtain ⟨b, caps, h1, h2⟩ := (Tests.status_test ok o.flt2 o.spam o.virus i.percent isNot (comparatorOf i.comparator)
    (matchOf cp i.matchType) (not_count_of hc hg.1 cp) (env.eval i.value)
    (fun n => charwise_of (fun h0 => hl h0 n) _ _)).2
  exact ⟨b, caps, h1, h2.trans (meets_iff hc _ _ _ _)⟩

/-! ## C119: metadata -/

theorem keys_meet {g : Got F} {m : MatchType} {c : Fields.Comparator} (hc : Compares g m c) (env : Env F N) (cp : Nat)
    (ks : List (Val F)) (s : Tests.Str) :
    (∃ k ∈ ks.map env.eval, Tests.Holds env.x (comparatorOf c) (matchOf cp m) (.text s) (.val k)) ↔
      ∃ k ∈ ks, Meets env.x g (.text s) (.val (env.eval k)) := by
  constructor
  · rintro ⟨k, h3, h4⟩
    obtain ⟨k, h5, rfl⟩ := List.mem_map.1 h3
    exact ⟨k, h5, (meets_iff hc _ _ _ _).1 h4⟩
  · rintro ⟨k, h3, h4⟩
    exact ⟨_, List.mem_map_of_mem h3, (meets_iff hc _ _ _ _).2 h4⟩

/-- C119: `metadata`. -/
theorem metadata_written (y : Args.Ext F) (has : Cap → Bool) {e : Entry} (he : testEntry .Metadata = some e)
    {ts : List (Tok F)} {g : Got F} {r : List (Tok F)} (h : readEntry y has .Metadata e ts = some (g, r)) :
    ∃ i mb an ks, TwoNames.of g = some i ∧ g.pos = [.val mb, .val an, .vals ks] ∧
      ∀ (env : Env F N) (o : OtherEnv F) (isNot : Bool) (cp : Nat), env.x.Ok → Comparing g →
        (cp ≠ 0 → ∀ s ∈ o.stored, Letterwise env.x s.2) →
        ∃ b caps, metadata env o isNot cp i = ⟨.bool (b ^^ isNot), caps⟩ ∧
          (b = true ↔ ∃ v, Tests.Stored env.x o.stored
              (.mailbox (Tests.text env.x.flt (env.eval mb)) (Tests.text env.x.flt (env.eval an))) v ∧
            ∃ k ∈ ks, Meets env.x g (.text v) (.val (env.eval k))) := by
  obtain ⟨i, hi, hp, hc⟩ := two_names_fields y has (.inl rfl) he h
  refine ⟨i, _, _, _, hi, hp, ?_⟩
  intro env o isNot cp ok hg hl
  obtain ⟨b, caps, h1, h2⟩ := Tests.metadata_test ok o.one o.stored
    (.mailbox (Tests.text env.x.flt (env.eval i.first)) (Tests.text env.x.flt (env.eval i.second))) (comparatorOf i.comparator)
    (matchOf cp i.matchType) (not_count_of hc hg.1 cp) (i.keys.map env.eval) isNot
    (fun s hs => charwise_of (fun h0 => hl h0 s hs) _ _)
  refine ⟨b, caps, h1, h2.trans ?_⟩
  simp only [keys_meet hc]

/-- C119: `servermetadata`. -/
theorem servermetadata_written (y : Args.Ext F) (has : Cap → Bool) {e : Entry} (he : testEntry .ServerMetadata = some e)
    {ts : List (Tok F)} {g : Got F} {r : List (Tok F)} (h : readEntry y has .ServerMetadata e ts = some (g, r)) :
    ∃ i an ks, OneName.of g = some i ∧ g.pos = [.val an, .vals ks] ∧
      ∀ (env : Env F N) (o : OtherEnv F) (isNot : Bool) (cp : Nat), env.x.Ok → Comparing g →
        (cp ≠ 0 → ∀ s ∈ o.stored, Letterwise env.x s.2) →
        ∃ b caps, servermetadata env o isNot cp i = ⟨.bool (b ^^ isNot), caps⟩ ∧
          (b = true ↔ ∃ v, Tests.Stored env.x o.stored (.server (Tests.text env.x.flt (env.eval an))) v ∧
            ∃ k ∈ ks, Meets env.x g (.text v) (.val (env.eval k))) := by
  obtain ⟨i, hi, hp, hc⟩ := servermetadata_fields y has he h
  refine ⟨i, _, _, hi, hp, ?_⟩
  intro env o isNot cp ok hg hl
  obtain ⟨b, caps, h1, h2⟩ := Tests.metadata_test ok o.one o.stored (.server (Tests.text env.x.flt (env.eval i.name)))
    (comparatorOf i.comparator) (matchOf cp i.matchType) (not_count_of hc hg.1 cp) (i.keys.map env.eval) isNot
    (fun s hs => charwise_of (fun h0 => hl h0 s hs) _ _)
  refine ⟨b, caps, h1, h2.trans ?_⟩
  simp only [keys_meet hc]

/-- C119: `notify_method_capability` (RFC 5435, 5): `online` is the only capability, and `maybe` its value. -/
theorem notifyCapability_written (y : Args.Ext F) (has : Cap → Bool) {e : Entry}
    (he : testEntry .NotifyMethodCapability = some e) {ts : List (Tok F)} {g : Got F} {r : List (Tok F)}
    (h : readEntry y has .NotifyMethodCapability e ts = some (g, r)) :
    ∃ i uri cap ks, TwoNames.of g = some i ∧ g.pos = [.val uri, .val cap, .vals ks] ∧
      ∀ (env : Env F N) (o : OtherEnv F) (isNot : Bool) (cp : Nat), env.x.Ok → Comparing g →
        ∃ b, notifyCapability env o isNot cp i = (b ^^ isNot) ∧
          (b = true ↔ env.x.eqIgnoreCase (Tests.text env.x.flt (env.eval cap)) "online".toList = true ∧
            Tests.Supports o.mailto o.notifyUris (env.x.utf8 (Tests.text env.x.flt (env.eval uri))) ∧
            ∃ k ∈ ks, Meets env.x g (.text "maybe".toList) (.val (env.eval k))) := by
  obtain ⟨i, hi, hp, hc⟩ := two_names_fields y has (.inr rfl) he h
  refine ⟨i, _, _, _, hi, hp, ?_⟩
  intro env o isNot cp ok hg
  obtain ⟨b, h1, h2⟩ := Tests.notify_method_capability ok o.one o.mailto o.notifyUris
    (env.x.utf8 (Tests.text env.x.flt (env.eval i.first))) (Tests.text env.x.flt (env.eval i.second)) (comparatorOf i.comparator)
    (matchOf cp i.matchType) (not_count_of hc hg.1 cp) (i.keys.map env.eval) isNot
  refine ⟨b, h1, h2.trans ?_⟩
  simp only [keys_meet hc]

/-! ## C119: `:count` and `:list` -/

/-- `:comparator` names the comparator, which is `i;ascii-casemap` without it. -/
structure ComparatorIs (g : Got F) (c : Tests.Comparator) : Prop where
  octet : c = .octet ↔ Named g "i;octet"
  numeric : c = .asciiNumeric ↔ Named g "i;ascii-numeric"
  casemap : c = .asciiCaseMap ↔ Default g

theorem comparatorIs_of {g : Got F} {m : MatchType} {c : Fields.Comparator} (h : Compares g m c) :
    ComparatorIs g (comparatorOf c) where
  octet := by
    rw [named_iff h (c' := .octet) (by simp [comparatorNames]) (by simp)]
    cases c <;> simp [comparatorOf]
  numeric := by
    rw [named_iff h (c' := .asciiNumeric) (by simp [comparatorNames]) (by simp)]
    cases c <;> simp [comparatorOf]
  casemap := by
    rw [default_iff h]
    cases c <;> simp [comparatorOf]

/-- The host is asked whether one of the values `P` is in one of the lists `ls`, each value once; and not at all if there
are only empty ones. -/
def AsksLists (g : Got F) (isNot : Bool) (ls : List Tests.Str) (P : Tests.Str → Prop) (o : Tests.Outcome) : Prop :=
  ((∀ v, P v → v = []) ∧ o = ⟨.bool isNot, []⟩) ∨
    ∃ asked c, asked ≠ [] ∧ asked.Nodup ∧ (∀ v, v ∈ asked ↔ P v ∧ v ≠ []) ∧ ComparatorIs g c ∧
      o = ⟨.listContains ls asked c isNot, []⟩

theorem asksLists_of {g : Got F} {m : MatchType} {c : Fields.Comparator} (h : Compares g m c) (x : Tests.Ext F) (isNot : Bool)
    (vals : List Tests.Str) (keys : List (Expr.Val F)) (P : Tests.Str → Prop) (hP : ∀ v, v ∈ vals ↔ P v) :
    AsksLists g isNot (keys.map (Tests.text x.flt)) P (Tests.listTest x isNot (comparatorOf c) vals keys) := by
  rcases Tests.list_test x isNot (comparatorOf c) vals keys with ⟨h1, h2⟩ | ⟨asked, h1, h2, h3, h4⟩
  · exact .inl ⟨fun v hv => h1 v ((hP v).2 hv), h2⟩
  · exact .inr ⟨asked, _, h1, h2, fun v => by rw [h3, hP], comparatorIs_of h, h4⟩

/-- C119: `header :list`. -/
theorem header_listed [DecidableEq N] (y : Args.Ext F) (has : Cap → Bool) {e : Entry} (he : testEntry .Header = some e)
    {ts : List (Tok F)} {g : Got F} {r : List (Tok F)} (h : readEntry y has .Header e ts = some (g, r)) :
    ∃ i hs ks, Header.of g = some i ∧ g.pos = [.vals hs, .vals ks] ∧
      ∀ (env : Env F N) (t : Mime.Tree) (isNot : Bool) (cp fuel : Nat), Mime.Represents env.parts t →
        env.part = t.id → t.preorder.length < fuel → Uses g .List →
        ∃ o, header env isNot cp fuel i = some o ∧
          AsksLists g isNot (ks.map fun k => Tests.text env.x.flt (env.eval k))
            (fun v => ∃ hd, Seen env g t hs hd ∧ Reads env g hd v) o := by
  obtain ⟨i, hi, hp, hc, hx, ho, ha⟩ := header_fields_partial y has he h
  refine ⟨i, _, _, hi, hp, ?_⟩
  intro env t isNot cp fuel ht hpart hf hg
  obtain ⟨found, h1, h2⟩ := Tests.found_iff env.parts t ht (i.headers.filterMap (nameOf env)) i.index i.anyChild fuel hf
  refine ⟨_, by unfold header Tests.headerExec; rw [hpart, h1, list_of hc hg]; rfl, ?_⟩
  have := asksLists_of hc env.x isNot ((found.map (·.1)).flatMap fun h =>
    Tests.headerValues env.x (env.plain h.name) (optsOf env i.mimeOpts) h.value) (i.keys.map env.eval)
    (fun v => ∃ hd, Seen env g t i.headers hd ∧ Reads env g hd v) (fun v => by
      rw [List.mem_flatMap]
      constructor
      · rintro ⟨hd, h3, h4⟩
        exact ⟨hd, (looked_iff ha hx t i.headers hd).1 ((h2 hd).1 h3), (reads_iff ho hd v).1 ((Tests.headerValues_iff ..).1 h4)⟩
      · rintro ⟨hd, h3, h4⟩
        exact ⟨hd, (h2 hd).2 ((looked_iff ha hx t i.headers hd).2 h3), (Tests.headerValues_iff ..).2 ((reads_iff ho hd v).2 h4)⟩)
  rw [List.map_map] at this
  exact this

/-- C119: `address :list`. -/
theorem address_listed [DecidableEq N] (y : Args.Ext F) (has : Cap → Bool) {e : Entry} (he : testEntry .Address = some e)
    {ts : List (Tok F)} {g : Got F} {r : List (Tok F)} (h : readEntry y has .Address e ts = some (g, r)) :
    ∃ i hs ks, Address.of g = some i ∧ g.pos = [.vals hs, .vals ks] ∧
      ∀ (env : Env F N) (t : Mime.Tree) (isNot : Bool) (cp fuel : Nat), Mime.Represents env.parts t →
        env.part = t.id → t.preorder.length < fuel → Uses g .List →
        ∃ o, address env isNot cp fuel i = some o ∧
          AsksLists g isNot (ks.map fun k => Tests.text env.x.flt (env.eval k))
            (fun v => ∃ hd q, Seen env g t hs hd ∧ Part g q ∧ Tests.AddressValue env.x q hd.value v) o := by
  obtain ⟨i, hi, hp, hc, hq, hx, ha⟩ := address_fields y has he h
  refine ⟨i, _, _, hi, hp, ?_⟩
  intro env t isNot cp fuel ht hpart hf hg
  obtain ⟨found, h1, h2⟩ := Tests.found_iff env.parts t ht (i.headers.filterMap (nameOf env)) i.index i.anyChild fuel hf
  refine ⟨_, by unfold address Tests.addressExec; rw [hpart, h1, list_of hc hg]; rfl, ?_⟩
  have := asksLists_of hc env.x isNot ((found.map (·.1)).flatMap fun h =>
    Tests.addressValues env.x (partOf i.part) h.value) (i.keys.map env.eval)
    (fun v => ∃ hd q, Seen env g t i.headers hd ∧ Part g q ∧ Tests.AddressValue env.x q hd.value v) (fun v => by
      rw [List.mem_flatMap]
      constructor
      · rintro ⟨hd, h3, h4⟩
        exact ⟨hd, _, (looked_iff ha hx t i.headers hd).1 ((h2 hd).1 h3), (part_iff hq _).2 rfl, (Tests.addressValues_iff ..).1 h4⟩
      · rintro ⟨hd, q, h3, h4, h5⟩
        obtain rfl := (part_iff hq q).1 h4
        exact ⟨hd, (h2 hd).2 ((looked_iff ha hx t i.headers hd).2 h3), (Tests.addressValues_iff ..).2 h5⟩)
  rw [List.map_map] at this
  exact this

/-- C119: `envelope :list`. -/
theorem envelope_listed (y : Args.Ext F) (has : Cap → Bool) {e : Entry} (he : testEntry .Envelope = some e)
    {ts : List (Tok F)} {g : Got F} {r : List (Tok F)} (h : readEntry y has .Envelope e ts = some (g, r)) :
    ∃ i ns ks, Envelope.of g = some i ∧ g.pos = [.texts ns, .vals ks] ∧
      ∀ (env : Env F N) (isNot : Bool) (cp : Nat), Uses g .List →
        AsksLists g isNot (ks.map fun k => Tests.text env.x.flt (env.eval k))
          (fun v => ∃ f ∈ env.envelope, (∃ w ∈ ns, ∃ n, FieldName n f.1 ∧ lower w = bytes n) ∧
            ∃ q z, Part g q ∧ ZoneIs g z ∧ Tests.EnvelopeValue env.x q (z.map env.shift) f.1 (Tests.text env.x.flt f.2) v)
          (envelope env isNot cp i) := by
  obtain ⟨i, ns, hi, hp, hfst, hc, hq, hz⟩ := envelope_fields y has he h
  refine ⟨i, ns, _, hi, hp, ?_⟩
  intro env isNot cp hg
  have hpq := (part_iff hq _).2 rfl
  have hzi := (zone_iff hz _).2 rfl
  have := asksLists_of hc env.x isNot ((env.envelope.filter fun e => (i.fields.filterMap fieldOf).contains e.1).filterMap fun e =>
    Tests.envelopeValue env.x (partOf i.part) (i.zone.map env.shift) e.1 e.2) (i.keys.map env.eval)
    (fun v => ∃ f ∈ env.envelope, (∃ w ∈ ns, ∃ n, FieldName n f.1 ∧ lower w = bytes n) ∧
      ∃ q z, Part g q ∧ ZoneIs g z ∧ Tests.EnvelopeValue env.x q (z.map env.shift) f.1 (Tests.text env.x.flt f.2) v) (fun v => by
      rw [List.mem_filterMap]
      constructor
      · rintro ⟨f, h3, h4⟩
        obtain ⟨h5, h6⟩ := List.mem_filter.1 h3
        obtain ⟨s, h7, h8⟩ := List.mem_filterMap.1 (List.contains_iff_mem.1 h6)
        obtain ⟨w, h9, rfl⟩ := (firstOnce_mem hfst s).1 h7
        exact ⟨f, h5, ⟨w, h9, (fieldOf_iff _ _).1 h8⟩, _, _, hpq, hzi, (Tests.envelopeValue_iff ..).1 h4⟩
      · rintro ⟨f, h3, ⟨w, h4, h5⟩, q, z, h6, h7, h8⟩
        obtain rfl := (part_iff hq q).1 h6
        obtain rfl := (zone_iff hz z).1 h7
        exact ⟨f, List.mem_filter.2 ⟨h3, List.contains_iff_mem.2 (List.mem_filterMap.2 ⟨_, (firstOnce_mem hfst _).2 ⟨w, h4, rfl⟩,
          (fieldOf_iff _ _).2 h5⟩)⟩, (Tests.envelopeValue_iff ..).2 h8⟩)
  rw [List.map_map] at this
  unfold envelope
  rw [list_of hc hg]
  exact this

/-- C119: `string :list`. -/
theorem string_listed (y : Args.Ext F) (has : Cap → Bool) {e : Entry} (he : testEntry .String = some e)
    {ts : List (Tok F)} {g : Got F} {r : List (Tok F)} (h : readEntry y has .String e ts = some (g, r)) :
    ∃ i ss ks, StringTest.of g = some i ∧ g.pos = [.vals ss, .vals ks] ∧
      ∀ (env : Env F N) (isNot : Bool) (cp : Nat), Uses g .List →
        AsksLists g isNot (ks.map fun k => Tests.text env.x.flt (env.eval k))
          (fun v => ∃ s ∈ ss, v = Tests.text env.x.flt (env.eval s)) (string env isNot cp i) := by
  obtain ⟨i, hi, hp, hc⟩ := string_fields y has he h
  refine ⟨i, _, _, hi, hp, ?_⟩
  intro env isNot cp hg
  have := asksLists_of hc env.x isNot ((i.source.map env.eval).map (Tests.text env.x.flt)) (i.keys.map env.eval)
    (fun v => ∃ s ∈ i.source, v = Tests.text env.x.flt (env.eval s)) (fun v => by simp [eq_comm])
  rw [List.map_map] at this
  unfold string
  rw [list_of hc hg]
  exact this

/-- C119: `string :count` compares the number of strings that are not empty with the keys. -/
theorem string_counted (y : Args.Ext F) (has : Cap → Bool) {e : Entry} (he : testEntry .String = some e)
    {ts : List (Tok F)} {g : Got F} {r : List (Tok F)} (h : readEntry y has .String e ts = some (g, r)) :
    ∃ i ss ks, StringTest.of g = some i ∧ g.pos = [.vals ss, .vals ks] ∧
      ∀ (env : Env F N) (isNot : Bool) (cp : Nat) (rel : Tests.Rel) (filled : Val F → Bool), env.x.Ok → Counting g rel →
        (∀ s, filled s = true ↔ env.eval s ≠ .str []) →
        ∃ b, string env isNot cp i = ⟨.bool (b ^^ isNot), []⟩ ∧
          (b = true ↔ ∃ k ∈ ks, Tests.NumSat env.x.flt (.int (ss.countP filled : Nat)) (Tests.number env.x (env.eval k)) rel) := by
  obtain ⟨i, hi, hp, hc⟩ := string_fields y has he h
  refine ⟨i, _, _, hi, hp, ?_⟩
  intro env isNot cp rel filled ok hr hfl
  obtain ⟨b, h1, h2⟩ := Tests.string_count ok isNot (comparatorOf i.comparator) rel (i.source.map env.eval) (i.keys.map env.eval)
  refine ⟨b, by unfold string; rw [count_of hc hr]; exact h1, h2.trans ?_⟩
  have : (fun a => !Tests.isEmpty a) ∘ env.eval = filled := by
    funext s
    rw [Bool.eq_iff_iff, hfl, Function.comp]
    cases env.eval s with
    | str l => cases l <;> simp [Tests.isEmpty]
    | _ => simp [Tests.isEmpty]
  rw [List.countP_map, this]
  simp

/-- The parts that are looked at. -/
def PartsAre (g : Got F) (t : Mime.Tree) (ids : List Nat) : Prop :=
  (Uses g .AnyChild → ids = t.preorder) ∧ (¬ Uses g .AnyChild → ids = [t.id])

theorem partsAre_of {g : Got F} {b : Bool} (h : Stores g [.AnyChild] Flag false b) (t : Mime.Tree) :
    PartsAre g t (Tests.searched b t) := by
  have := flag_iff h
  constructor
  · intro hu
    rw [this.2 hu]; rfl
  · intro hu
    cases b with
    | true => exact absurd (this.1 rfl) hu
    | false => rfl

theorem found_number [DecidableEq N] (parts : List (Mime.Part N Tests.Field)) (t : Mime.Tree) (ht : Mime.Represents parts t)
    (names : List N) (anychild : Bool) (fuel : Nat) (hfuel : t.preorder.length < fuel) :
    ∃ found, Mime.findHeaders parts t.id names none anychild fuel = some found ∧
      found.length = (names.map fun n => (Tests.fieldsCalled parts (Tests.searched anychild t) n).length).sum := by
  refine ⟨_, by rw [Mime.findHeaders, Tests.visit_searched parts t ht anychild fuel hfuel]; rfl, ?_⟩
  generalize Tests.searched anychild t = ids
  beta_reduce
  induction ids with
  | nil => simp [Tests.fieldsCalled]
  | cons i ids ih =>
    rw [List.flatMap_cons, List.length_append, ih]
    have : ∀ n, (Tests.fieldsCalled parts (i :: ids) n).length =
        (Tests.fieldsCalled parts [i] n).length + (Tests.fieldsCalled parts ids n).length := by
      intro n
      simp [Tests.fieldsCalled]
    have e : (names.map fun n => (Tests.fieldsCalled parts (i :: ids) n).length).sum =
        (names.map fun n => (Tests.fieldsCalled parts [i] n).length).sum +
          (names.map fun n => (Tests.fieldsCalled parts ids n).length).sum := by
      clear ih
      induction names with
      | nil => rfl
      | cons n names ih =>
        rw [List.map_cons, List.sum_cons, ih, this, List.map_cons, List.sum_cons, List.map_cons, List.sum_cons]
        omega
    rw [e]
    congr 1
    cases hp : parts[i]? with
    | none => simp [Tests.fieldsCalled, hp]
    | some p =>
      simp only [Tests.fieldsCalled, hp, List.flatMap_cons, List.flatMap_nil, List.append_nil, List.length_flatMap,
        List.length_map]
      congr 1
      apply List.map_congr_left
      intro n _
      rw [Mime.selectHeaders, ← List.countP_eq_length_filter, Mime.countP_zipIdx, ← List.countP_eq_length_filter]
      rfl

/-- C119: `header :count` without `:index` and without options of `:mime` compares the number of header fields that are
called so with the keys. -/
theorem header_counted [DecidableEq N] (y : Args.Ext F) (has : Cap → Bool) {e : Entry} (he : testEntry .Header = some e)
    {ts : List (Tok F)} {g : Got F} {r : List (Tok F)} (h : readEntry y has .Header e ts = some (g, r)) :
    ∃ i hs ks, Header.of g = some i ∧ g.pos = [.vals hs, .vals ks] ∧
      ∀ (env : Env F N) (t : Mime.Tree) (isNot : Bool) (cp fuel : Nat) (rel : Tests.Rel), env.x.Ok →
        Mime.Represents env.parts t → env.part = t.id → t.preorder.length < fuel → Counting g rel → ¬ Uses g .Index →
        (∀ w ∈ [Word.Type, .Subtype, .ContentType, .Param], ¬ Uses g w) →
        ∃ b ids, PartsAre g t ids ∧ header env isNot cp fuel i = some ⟨.bool (b ^^ isNot), []⟩ ∧
          (b = true ↔ ∃ k ∈ ks, Tests.NumSat env.x.flt
            (.int (((hs.filterMap fun w => env.headerName (Tests.text env.x.flt (env.eval w))).map fun n =>
              (Tests.fieldsCalled env.parts ids n).length).sum : Nat)) (Tests.number env.x (env.eval k)) rel) := by
  obtain ⟨i, hi, hp, hc, hx, ho, ha⟩ := header_fields_partial y has he h
  refine ⟨i, _, _, hi, hp, ?_⟩
  intro env t isNot cp fuel rel ok ht hpart hf hr hn hm
  obtain ⟨found, h1, h2⟩ := found_number env.parts t ht (i.headers.filterMap (nameOf env)) i.anyChild fuel hf
  refine ⟨_, _, partsAre_of ha t, by
    unfold header Tests.headerExec
    rw [hpart, count_of hc hr, hx.default hn, h1]
    rfl, ?_⟩
  rw [Tests.countTest_iff ok, ho.default hm]
  have : (List.map (fun h : Mime.Header N Tests.Field => Tests.headerCount env.x (optsOf env .none) h.value)
      (List.map (·.1) found)).sum = found.length := by
    clear h1 h2
    induction found with
    | nil => rfl
    | cons a as ih =>
      rw [List.map_cons, List.map_cons, List.sum_cons, ih, List.length_cons, Nat.add_comm]
      rfl
  rw [this, h2]
  simp only [List.mem_map, exists_exists_and_eq_and]
  rfl

/-- C119: `date :count` without `:index` compares the number of header fields that are called so and have a date with the
keys. -/
theorem date_counted [DecidableEq N] (y : Args.Ext F) (has : Cap → Bool) {e : Entry} (he : testEntry .Date = some e)
    {ts : List (Tok F)} {g : Got F} {r : List (Tok F)} (h : readEntry y has .Date e ts = some (g, r)) :
    ∃ i w part ks, Date.of g = some i ∧ g.pos = [.val w, .text part, .vals ks] ∧
      ∀ (env : Env F N) (o : OtherEnv F) (t : Mime.Tree) (isNot : Bool) (cp fuel : Nat) (rel : Tests.Rel) (name : N)
        (dated : Tests.Field → Bool), env.x.Ok →
        Mime.Represents env.parts t → env.part = t.id → t.preorder.length < fuel → Counting g rel → ¬ Uses g .Index →
        env.headerName (Tests.text env.x.flt (env.eval w)) = some name →
        (∀ f, dated f = true ↔ ∃ d, Tests.FieldDate env.x o.dates f d) →
        ∃ b ids, PartsAre g t ids ∧ date env o isNot cp fuel i = some ⟨.bool (b ^^ isNot), []⟩ ∧
          (b = true ↔ ∃ k ∈ ks, Tests.NumSat env.x.flt (.int ((Tests.fieldsCalled env.parts ids name).countP dated : Nat))
            (Tests.number env.x (env.eval k)) rel) := by
  obtain ⟨i, part, hi, hp, ⟨n, hn, hl, hn'⟩, hc, hx, hz, ha⟩ := date_fields y has he h
  obtain ⟨dp, hdp⟩ := datePart_named hn
  refine ⟨i, _, _, _, hi, hp, ?_⟩
  intro env o t isNot cp fuel rel name dated ok ht hpart hf hr hni hname hdated
  have hd : datePartOf i.part = some dp := (datePartOf_iff _ _).2 ⟨n, hdp, hn'⟩
  obtain ⟨b, h1, h2⟩ := Tests.date_count ok o.dates isNot (comparatorOf i.comparator) rel (zoneOf i.zone) dp env.parts t ht name
    i.anyChild fuel hf (i.keys.map env.eval) dated hdated
  refine ⟨b, _, partsAre_of ha t, by
    unfold date
    rw [hd, hpart, count_of hc hr, hx.default hni, show nameOf env i.header = some name from hname]
    exact h1, h2.trans ?_⟩
  simp only [List.mem_map, exists_exists_and_eq_and]

/-- C119: `metadata :count` compares one, for an annotation that exists, with the keys. -/
theorem metadata_counted (y : Args.Ext F) (has : Cap → Bool) {e : Entry} (he : testEntry .Metadata = some e)
    {ts : List (Tok F)} {g : Got F} {r : List (Tok F)} (h : readEntry y has .Metadata e ts = some (g, r)) :
    ∃ i mb an ks, TwoNames.of g = some i ∧ g.pos = [.val mb, .val an, .vals ks] ∧
      ∀ (env : Env F N) (o : OtherEnv F) (isNot : Bool) (cp : Nat) (rel : Tests.Rel), env.x.Ok → Counting g rel →
        ∃ b, metadata env o isNot cp i = ⟨.bool (b ^^ isNot), []⟩ ∧
          (b = true ↔ (∃ v, Tests.Stored env.x o.stored
              (.mailbox (Tests.text env.x.flt (env.eval mb)) (Tests.text env.x.flt (env.eval an))) v) ∧
            ∃ k ∈ ks, Tests.NumSat env.x.flt (.flt o.one) (Tests.number env.x (env.eval k)) rel) := by
  obtain ⟨i, hi, hp, hc⟩ := two_names_fields y has (.inl rfl) he h
  refine ⟨i, _, _, _, hi, hp, ?_⟩
  intro env o isNot cp rel ok hr
  obtain ⟨b, h1, h2⟩ := Tests.metadata_count ok o.one o.stored
    (.mailbox (Tests.text env.x.flt (env.eval i.first)) (Tests.text env.x.flt (env.eval i.second))) (comparatorOf i.comparator)
    rel (i.keys.map env.eval) isNot
  refine ⟨b, by unfold metadata; rw [count_of hc hr]; exact h1, h2.trans ?_⟩
  simp only [List.mem_map, exists_exists_and_eq_and]

/-! ## Examples -/

def exOther : OtherEnv Int where
  dates := { Tests.exDates with toZone := fun d _ => { d with hour := 9 }, utc := fun d => { d with hour := 6 } }
  now := 0
  one := 1
  lib := Body.exLib
  msg := Body.exMsg
  subject := "ab".toList
  rawSubject := " ab".toList
  parseId := fun b => some (b.map fun u => Char.ofNat u.toNat)
  messageId := some "id".toList
  expiry := 60
  flt2 := ⟨id, id, 2⟩
  spam := .ham
  virus := .cured
  stored := Tests.exMeta
  mailto := ⟨fun _ => true, fun k => .other k⟩
  notifyUris := []

/-- `date :contains "X" "Hour" "0"`: the part is read, and there is a date in the field; `date :count "eq" "X" "hour" "2"` -/
example : (resultOf .Date [.tag .Contains, .string (bytes "X"), .string (bytes "Hour"), .string (bytes "0")] Date.of
      fun i => some (i.part == bytes "hour")) = some true ∧ DateName "hour" .hour ∧
    Tests.FieldDate exEnv.x exOther.dates ⟨.text "Ab".toList, true, []⟩ Tests.exDate ∧
    (resultOf .Date [.tag .Count, .string (bytes "eq"), .string (bytes "X"), .string (bytes "hour"), .string (bytes "2")] Date.of
      (date exEnv exOther false 0 3)) = some ⟨.bool true, []⟩ :=
  ⟨by decide +kernel, .hour, .added rfl rfl rfl rfl rfl, by decide +kernel⟩

/-- `body :raw :contains "34"`, `body :subject :is "ab"`, `body :raw :subject :is "ab"` -/
example : resultOf .Body [.tag .Raw, .tag .Contains, .string (bytes "34")] Body.of (body exEnv exOther false 0 9) = some true ∧
    resultOf .Body [.tag .Subject, .string (bytes "ab")] Body.of (body exEnv exOther false 0 9) = some true ∧
    resultOf .Body [.tag .Raw, .tag .Subject, .string (bytes "ab")] Body.of (body exEnv exOther false 0 9) = some false := by
  decide +kernel

/-- `duplicate :header "X" :handle "h" :seconds 7`, `duplicate :last` -/
example : resultOf .Duplicate [.tag .Header, .string (bytes "X"), .tag .Handle, .string (bytes "h"), .tag .Seconds, .number 7]
      (fun g => some (Duplicate.of g)) (duplicate exEnv exOther false 3) = some (.ask ⟨"h12".toList, 7, false⟩ false) ∧
    resultOf .Duplicate [.tag .Last] (fun g => some (Duplicate.of g)) (duplicate exEnv exOther false 3) =
      some (.ask ⟨"id".toList, 60, true⟩ false) := by
  constructor <;> rfl

/-- `virustest :value "ge" :comparator "i;ascii-numeric" "3"` -/
example : resultOf .VirusTest [.tag .Value, .string (bytes "ge"), .tag .Comparator, .string (bytes "i;ascii-numeric"),
      .string (bytes "3")] SpamTest.of (fun i => some (virustest exEnv exOther false 0 i)) = some ⟨.bool true, []⟩ ∧
    resultOf .SpamTest [.tag .Value, .string (bytes "gt"), .tag .Comparator, .string (bytes "i;ascii-numeric"),
      .string (bytes "1")] SpamTest.of (fun i => some (spamtest exEnv exOther false 0 i)) = some ⟨.bool false, []⟩ := by
  decide +kernel

/-- `metadata "inbox" "/a" "1"`, `servermetadata "/a" "1"` -/
example : resultOf .Metadata [.string (bytes "inbox"), .string (bytes "/a"), .string (bytes "1")] TwoNames.of
      (fun i => some (metadata exEnv exOther false 0 i)) = some ⟨.bool true, []⟩ ∧
    resultOf .ServerMetadata [.string (bytes "/a"), .string (bytes "1")] OneName.of
      (fun i => some (servermetadata exEnv exOther false 0 i)) = some ⟨.bool false, []⟩ := by
  decide +kernel

/-- `notify_method_capability "tel:1" "online" ["x", "maybe"]` -/
example : resultOf .NotifyMethodCapability [.string (bytes "tel:1"), .string (bytes "online"), .bracketOpen, .string (bytes "x"),
      .comma, .string (bytes "maybe"), .bracketClose] TwoNames.of
      (fun i => some (notifyCapability exEnv { exOther with notifyUris := [bytes "tel"] } false 0 i)) = some true := by
  decide +kernel

/-- `header :count "ge" ["X", "Y"] "3"`, `header :list "X" "friends"` -/
example : resultOf .Header [.tag .Count, .string (bytes "ge"), .bracketOpen, .string (bytes "X"), .comma, .string (bytes "Y"),
      .bracketClose, .string (bytes "3")] Header.of (header exEnv false 0 3) = some ⟨.bool true, []⟩ ∧
    resultOf .Header [.tag .List, .string (bytes "X"), .string (bytes "friends")] Header.of (header exEnv true 0 3) =
      some ⟨.listContains ["friends".toList] ["12".toList, "Ab".toList] .asciiCaseMap true, []⟩ := by
  decide +kernel

/-- `string :count "eq" ["a", "", "b"] "2"` -/
example : resultOf .String [.tag .Count, .string (bytes "eq"), .bracketOpen, .string (bytes "a"), .comma, .string [], .comma,
      .string (bytes "b"), .bracketClose, .string (bytes "2")] StringTest.of (fun i => some (string exEnv false 0 i)) =
    some ⟨.bool true, []⟩ := by
  decide +kernel

end Sieve.Written
