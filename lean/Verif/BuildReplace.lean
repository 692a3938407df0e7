import Verif.BuildEnclose

/-!
# C58: replace; examples and counterexamples
-/

namespace Sieve.Build
open Sieve.Mime (Header Represents)

variable {N : Type}

/-- The tree with another part in the place of part `i`. -/
def put (i : Nat) (new : Tree) : Tree → Tree
  | .node j fs sep ks rest => if j = i then new else .node j fs sep (puts ks) rest
where
  puts : List (Bytes × Tree) → List (Bytes × Tree)
    | [] => []
    | (x, t) :: ks => (x, put i new t) :: puts ks

theorem shows_put {raw : Bytes} {parts : List (Part N)} {part : Nat} {p : Part N} (hp : parts[part]? = some p)
    (hm : ∀ subs, p.content ≠ .multipart subs) {hs : List (Header N Val)} {enc : Bool} {body : Bytes} {fs}
    (hl : lines raw hs = some fs) {id a b t} (h : Shows raw parts id a b t) :
    Shows raw (parts.set part (.mk hs p.header 0 p.stop enc (.text body))) id a b
      (put part (.node part fs (if enc then crlf else []) [] body) t) := by
  have hlt := (List.getElem?_eq_some_iff.mp hp).1
  have hself : (parts.set part (.mk hs p.header 0 p.stop enc (.text body)))[part]? = some (.mk hs p.header 0 p.stop enc (.text body)) :=
    List.getElem?_set_self hlt
  have hother : ∀ i, i ≠ part → (parts.set part (.mk hs p.header 0 p.stop enc (.text body)))[i]? = parts[i]? :=
    fun i hi => List.getElem?_set_ne (Ne.symm hi)
  have new : ∀ {a b}, p.header = a → p.stop = b → 0 < b → b ≤ raw.length →
      Shows raw (parts.set part (.mk hs p.header 0 p.stop enc (.text body))) part a b (.node part fs (if enc then crlf else []) [] body) := by
    intro a b h1 h2 h3 h4
    have := Shows.replaced (raw := raw) hself rfl rfl h1 h2 h3 h4 hl
    exact this
  refine Shows.rec (motive_1 := fun id a b t _ => Shows raw (parts.set part (.mk hs p.header 0 p.stop enc (.text body))) id a b
      (put part (.node part fs (if enc then crlf else []) [] body) t))
    (motive_2 := fun e subs ks e' _ => ShowsAll raw (parts.set part (.mk hs p.header 0 p.stop enc (.text body))) e subs
      (put.puts part (.node part fs (if enc then crlf else []) [] body) ks) e') ?_ ?_ ?_ ?_ ?_ h
  · intro id q a b fs' x h1 h2 h3 h4 h5 h6 h7
    by_cases hid : id = part
    · subst hid
      rw [hp] at h1
      injection h1 with h1
      subst h1
      obtain ⟨s1, s2⟩ := shows_pos (.leaf hp h2 h3 h4 h5 h6 h7)
      rw [put, if_pos rfl]
      exact new h4 h5 s1 s2
    · rw [put, if_neg hid]
      exact .leaf (by rw [hother id hid]; exact h1) h2 h3 h4 h5 h6 h7
  · intro id q a b fs' x h1 h2 h3 h4 h5 h6 h7 h8
    by_cases hid : id = part
    · subst hid
      rw [hp] at h1
      injection h1 with h1
      subst h1
      rw [put, if_pos rfl]
      exact new h4 h5 h6 h7
    · rw [put, if_neg hid]
      exact .replaced (by rw [hother id hid]; exact h1) h2 h3 h4 h5 h6 h7 h8
  · intro id q a b fs' subs ks e x h1 h2 h3 h4 h5 h6 _ h8 ih
    by_cases hid : id = part
    · subst hid
      rw [hp] at h1
      injection h1 with h1
      subst h1
      exact absurd h3 (hm subs)
    · rw [put, if_neg hid]
      exact .multi (by rw [hother id hid]; exact h1) h2 h3 h4 h5 h6 ih h8
  · intro e
    exact .nil
  · intro e id a b t g subs ks e' h1 _ _ i1 i2
    exact .cons h1 i1 i2

variable [DecidableEq N]

/-- **C58 (1).** `replace` of a part that has no parts: the part consists of the new text, with a header of its own unless
`:mime` was given, and nothing else of the message changes.

What is missing: parts that have parts, see `replace_shifts_parts` and `replace_crashes`. -/
theorem replace_part_partial (ct : N) (x : Names N) (c : Ctx N) {a b t} (h : Shows c.msg.raw c.msg.parts 0 a b t) {part : Nat} {p}
    (h0 : part ≠ 0) (hp : c.msg.parts[part]? = some p) (hm : ∀ subs, p.content ≠ .multipart subs) (r : Replacement) (fuel : Nat) :
    ∃ c', replace x c part r fuel = some c' ∧ c'.msg.raw = c.msg.raw ∧ Writes ct c'.msg
      ((put part (if r.mime then .node part [] [] [] r.body
        else .node part [ascii "Content-Type: text/plain; charset=utf-8\r\n"] crlf [] r.body) t).text ++ c.msg.raw.drop b) := by
  have hn : Mime.findNestedPartsIds c.msg.mime part false fuel = some [] := by
    unfold Mime.findNestedPartsIds
    rw [if_neg h0, show c.msg.mime[part]? = some p.mime from mime_get hp]
    have : p.mime.body = .other := by
      unfold Part.mime Content.mime
      show (match p.content with | .multipart subs => Mime.Body.multipart subs | _ => .other) = .other
      split
      · rename_i subs hs
        exact absurd hs (hm subs)
      · rfl
    simp [this]
  have hr : removeParts c.msg.parts [] = some c.msg.parts := by simp [removeParts]
  simp only [replace, hn, hr, hp, Option.bind_eq_bind, Option.bind_some, if_neg h0, List.nil_append]
  refine ⟨_, rfl, rfl, ?_⟩
  cases hmime : r.mime with
  | true =>
    have := shows_put hp hm (hs := []) (enc := false) (body := r.body) (fs := []) rfl h
    exact writes_whole (.plain this)
  | false =>
    have := shows_put hp hm (hs := [newField (x.other (ascii "Content-Type")) (ascii "Content-Type") (ascii "text/plain; charset=utf-8")])
      (enc := true) (body := r.body) (fs := [ascii "Content-Type: text/plain; charset=utf-8\r\n"]) rfl h
    exact writes_whole (.plain this)

omit [DecidableEq N] in
theorem removeParts_zero (parts : List (Part N)) (ids : List Nat) (h : ∀ i ∈ ids, i ≠ 0 ∧ i < parts.length) (hd : ids.Nodup) :
    ∃ ps, removeParts parts ids = some ps ∧ ps[0]? = parts[0]? := by
  unfold removeParts
  have h' : ∀ i ∈ ids.insertionSort (fun a b => b ≤ a), i ≠ 0 ∧ i < parts.length := fun i hi => h i ((List.mem_insertionSort _).mp hi)
  have s' : (ids.insertionSort (fun a b => b ≤ a)).Pairwise (fun a b => b < a) := by
    have s1 := List.pairwise_insertionSort (fun a b : Nat => b ≤ a) ids
    have s2 : (ids.insertionSort (fun a b => b ≤ a)).Nodup := (List.perm_insertionSort _ ids).nodup_iff.mpr hd
    refine (s1.and s2).imp ?_
    rintro a b ⟨h1, h2⟩
    omega
  clear h hd
  generalize ids.insertionSort (fun a b => b ≤ a) = l at h' s'
  induction l generalizing parts with
  | nil => exact ⟨parts, rfl, rfl⟩
  | cons i l ih =>
    obtain ⟨h1, h2⟩ := h' i (List.mem_cons_self ..)
    obtain ⟨s1, s2⟩ := List.pairwise_cons.mp s'
    have hlen : (parts.eraseIdx i).length = parts.length - 1 := List.length_eraseIdx_of_lt h2
    have key : ∀ j ∈ l, j ≠ 0 ∧ j < (parts.eraseIdx i).length := by
      intro j hj
      have := s1 j hj
      exact ⟨(h' j (List.mem_cons_of_mem _ hj)).1, by omega⟩
    obtain ⟨ps, p1, p2⟩ := ih (parts.eraseIdx i) key s2
    refine ⟨ps, ?_, ?_⟩
    · rw [List.foldlM_cons]
      simp only [removePart, if_pos h2, Option.bind_eq_bind, Option.bind_some]
      exact p1
    · rw [p2, List.getElem?_eraseIdx, if_pos]
      omega

theorem replace_whole (ct : N) (x : Names N) (c : Ctx N) {p ks} (hp : c.msg.parts[0]? = some p) (hs : 0 < p.stop)
    (hl : p.stop ≤ c.msg.raw.length) (r : Replacement) (hk : lines c.msg.raw (p.headers.filterMap (keepField x r)) = some ks) (fuel : Nat) :
    ∃ c', replace x c 0 r fuel = some c' ∧ Writes ct c'.msg
      (ks.flatten ++ shown (replaceFields x r p.headers) ++ (if r.mime then [] else ascii "Content-Type: text/plain; charset=utf-8\r\n" ++ crlf)
        ++ r.body ++ c.msg.raw.drop p.stop) := by
  have hn : ∃ ids, Mime.findNestedPartsIds c.msg.mime 0 false fuel = some ids ∧ (∀ i ∈ ids, i ≠ 0 ∧ i < c.msg.parts.length) ∧ ids.Nodup := by
    have hlen : c.msg.mime.length = c.msg.parts.length := by simp [Msg.mime]
    unfold Mime.findNestedPartsIds
    rw [if_pos rfl]
    simp only [Bool.false_eq_true, if_false]
    by_cases h1 : 1 < c.msg.mime.length
    · rw [if_pos h1]
      refine ⟨_, rfl, ?_, List.nodup_range'⟩
      intro i hi
      rw [List.mem_range'_1] at hi
      omega
    · rw [if_neg h1]
      exact ⟨[], rfl, by simp, List.nodup_nil⟩
  obtain ⟨ids, hn, hids, hnd⟩ := hn
  obtain ⟨ps, hps, hr⟩ := removeParts_zero c.msg.parts ids hids hnd
  rw [hp] at hr
  simp only [replace, hn, hps, hr, Option.bind_eq_bind, Option.bind_some, if_true]
  refine ⟨_, rfl, ?_⟩
  obtain ⟨f1, l1, t1⟩ := lines_new c.msg.raw x (replaceFields x r p.headers ++ if r.mime then [] else [(ascii "Content-Type", ascii "text/plain; charset=utf-8")])
  let q := Part.mk (List.filterMap (keepField x r) p.headers ++
    List.map (fun f => newField (x.other f.1) f.1 f.2) (replaceFields x r p.headers ++ if r.mime then [] else [(ascii "Content-Type", ascii "text/plain; charset=utf-8")]))
      p.header 0 p.stop (!r.mime) (.text r.body)
  have hself : (ps.set 0 q)[0]? = some q := List.getElem?_set_self (List.getElem?_eq_some_iff.mp hr).1
  have := writes_whole (Whole.plain (ct := ct) (m := ⟨c.msg.raw, ps.set 0 q⟩) (Shows.replaced (raw := c.msg.raw) hself rfl rfl rfl rfl hs hl (lines_append hk l1)))
  have e : shown (replaceFields x r p.headers ++ if r.mime then [] else [(ascii "Content-Type", ascii "text/plain; charset=utf-8")])
      ++ (if (!r.mime) = true then crlf else []) = shown (replaceFields x r p.headers) ++
        (if r.mime then [] else ascii "Content-Type: text/plain; charset=utf-8\r\n" ++ crlf) := by
    cases r.mime
    · simp only [shown, List.map_append, List.flatten_append, List.append_assoc]
      rfl
    · simp [shown]
  simp only [Tree.text, Tree.text.texts, List.append_nil, List.flatten_append, t1] at this
  rw [show q.encoded = !r.mime from rfl] at this
  rw [List.append_assoc ks.flatten, e] at this
  simp only [List.append_assoc] at this ⊢
  exact this

/-- The bytes from `a` to `b` are `v`. -/
def At (raw : Bytes) (a b : Nat) (v : Bytes) : Prop := ∃ pre post, raw = pre ++ v ++ post ∧ pre.length = a ∧ (pre ++ v).length = b

/-- A field as it stands: its bytes in the message as received; a field that the script has renamed or added, with its
name. -/
inductive Stands (raw : Bytes) (h : Header N Val) : Bytes → Prop
  | received {l} : h.value.stop ≠ 0 → h.value.field ≠ h.value.start → At raw h.value.field h.value.stop l → Stands raw h l
  | renamed {v} : h.value.stop ≠ 0 → h.value.field = h.value.start → At raw h.value.start h.value.stop v →
      Stands raw h (h.value.spelling ++ ascii ":" ++ v)
  | added : h.value.stop = 0 → Stands raw h (h.value.spelling ++ ascii ": " ++ h.value.text ++ crlf)

/-- A field under another name. -/
inductive Under (raw : Bytes) (h : Header N Val) (name : Bytes) : Bytes → Prop
  | received {v} : h.value.stop ≠ 0 → At raw h.value.start h.value.stop v → Under raw h name (name ++ ascii ":" ++ v)
  | added : h.value.stop = 0 → Under raw h name (name ++ ascii ": " ++ h.value.text ++ crlf)

/-- What is left of a header field when the message is replaced: dates, recipients and trace fields stay, as do `Subject` and
`From`, which are renamed if new ones are given; all others are dropped. -/
inductive KeptAs (x : Names N) (r : Replacement) (raw : Bytes) (h : Header N Val) : Bytes → Prop
  | date {l} : x.kind h = .date → Stands raw h l → KeptAs x r raw h l
  | recipient {l} : x.kind h = .recipient → Stands raw h l → KeptAs x r raw h l
  | subject {l} : x.kind h = .subject → r.subject = none → Stands raw h l → KeptAs x r raw h l
  | subjectRenamed {s l} : x.kind h = .subject → r.subject = some s → Under raw h (ascii "Original-Subject") l → KeptAs x r raw h l
  | from {l} : x.kind h = .from → r.from = none → Stands raw h l → KeptAs x r raw h l
  | fromRenamed {f l} : x.kind h = .from → r.from = some f → Under raw h (ascii "Original-From") l → KeptAs x r raw h l
  | dropped : x.kind h = .other → KeptAs x r raw h []

/-- The new header fields: `From` as given or the user's, `Subject` if given, `Date` if there was none, `Message-ID`. -/
def NewLines (x : Names N) (r : Replacement) (old : List (Header N Val)) (text : Bytes) : Prop :=
  ∃ f s d, text = ascii "From: " ++ f ++ crlf ++ s ++ d ++ ascii "Message-ID: " ++ r.id ++ crlf ∧
    ((∃ g, r.from = some g ∧ g ≠ [] ∧ f = x.clean g) ∨ ((r.from = none ∨ r.from = some []) ∧ f = r.user)) ∧
    ((∃ g, r.subject = some g ∧ g ≠ [] ∧ s = ascii "Subject: " ++ x.clean g ++ crlf) ∨
      ((r.subject = none ∨ r.subject = some []) ∧ s = [])) ∧
    (((∃ h ∈ old, x.kind h = .date) ∧ d = []) ∨
      ((∀ h ∈ old, x.kind h ≠ .date) ∧ d = ascii "Date: " ++ r.now ++ crlf))

theorem at_slice {raw : Bytes} {a b : Nat} {v : Bytes} (h : At raw a b v) : slice raw a b = some v := by
  obtain ⟨pre, post, rfl, rfl, rfl⟩ := h
  unfold slice
  rw [if_pos (by simp), List.take_left', List.drop_left']
  · rfl
  · rfl

omit [DecidableEq N] in
theorem stands_line {raw : Bytes} {h : Header N Val} {l : Bytes} (hs : Stands raw h l) : line raw h = some l := by
  unfold line
  cases hs with
  | received h1 h2 h3 => rw [if_pos h1, if_pos h2, at_slice h3]
  | renamed h1 h2 h3 => rw [if_pos h1, if_neg (by simpa using h2), at_slice h3]; rfl
  | added h1 => rw [if_neg (by simpa using h1)]

omit [DecidableEq N] in
theorem under_line (x : Names N) {raw : Bytes} {h : Header N Val} {name l : Bytes} (hs : Under raw h name l) :
    line raw (renamed x h name) = some l := by
  unfold line renamed
  cases hs with
  | received h1 h3 => rw [if_pos h1, if_neg (by simp)]; simp only [at_slice h3]; rfl
  | added h1 => rw [if_neg (by simpa using h1)]

omit [DecidableEq N] in
theorem kept_lines (x : Names N) (r : Replacement) (raw : Bytes) : ∀ (hs : List (Header N Val)) (ls : List Bytes),
    List.Forall₂ (KeptAs x r raw) hs ls → ∃ ks, lines raw (hs.filterMap (keepField x r)) = some ks ∧ ks.flatten = ls.flatten
  | [], _, h => by
    cases h
    exact ⟨[], rfl, rfl⟩
  | h :: hs, _, hf => by
    cases hf with
    | @cons _ l _ ls h1 h2 =>
    obtain ⟨ks, k1, k2⟩ := kept_lines x r raw hs ls h2
    have keep : ∀ k, keepField x r h = some k → line raw k = some l →
        ∃ ks, lines raw ((h :: hs).filterMap (keepField x r)) = some ks ∧ ks.flatten = (l :: ls).flatten := by
      intro k e1 e2
      refine ⟨l :: ks, ?_, by simp [k2]⟩
      rw [List.filterMap_cons_some e1]
      simp [lines, e2, k1]
    cases h1 with
    | date h1 h2 => exact keep h (by simp [keepField, h1]) (stands_line h2)
    | recipient h1 h2 => exact keep h (by simp [keepField, h1]) (stands_line h2)
    | subject h1 h3 h2 => exact keep h (by simp [keepField, h1, h3]) (stands_line h2)
    | subjectRenamed h1 h3 h2 =>
      exact keep (renamed x h (ascii "Original-Subject")) (by simp only [keepField, h1, h3]; rfl) (under_line x h2)
    | «from» h1 h3 h2 => exact keep h (by simp [keepField, h1, h3]) (stands_line h2)
    | fromRenamed h1 h3 h2 =>
      exact keep (renamed x h (ascii "Original-From")) (by simp only [keepField, h1, h3]; rfl) (under_line x h2)
    | dropped h1 =>
      rw [List.filterMap_cons_none (by simp [keepField, h1])]
      exact ⟨ks, k1, by simpa using k2⟩

omit [DecidableEq N] in
theorem newLines_eq {x : Names N} {r : Replacement} {old : List (Header N Val)} {text : Bytes} (h : NewLines x r old text) :
    shown (replaceFields x r old) = text := by
  obtain ⟨f, s, d, rfl, hf, hs, hd⟩ := h
  have e1 : (match r.from with | some f => if f = [] then r.user else x.clean f | none => r.user) = f := by
    rcases hf with ⟨g, h1, h2, rfl⟩ | ⟨h1 | h1, rfl⟩
    · rw [h1]; exact if_neg h2
    · rw [h1]
    · rw [h1]; exact if_pos rfl
  have e2 : shown (match r.subject with | some s => if s = [] then [] else [(ascii "Subject", x.clean s)] | none => []) = s := by
    rcases hs with ⟨g, h1, h2, rfl⟩ | ⟨h1 | h1, rfl⟩
    · rw [h1]
      simp only [if_neg h2, shown, List.map_cons, List.map_nil, List.flatten_cons, List.flatten_nil, List.append_nil]
      rfl
    · rw [h1]; rfl
    · rw [h1]; rfl
  have e3 : shown (if old.any (fun h => x.kind h = .date) then [] else [(ascii "Date", r.now)]) = d := by
    rcases hd with ⟨⟨h, h1, h2⟩, rfl⟩ | ⟨h1, rfl⟩
    · rw [if_pos (List.any_eq_true.mpr ⟨h, h1, by simpa using h2⟩)]; rfl
    · rw [if_neg (by simpa using h1)]
      simp only [shown, List.map_cons, List.map_nil, List.flatten_cons, List.flatten_nil, List.append_nil]
      rfl
  have app : ∀ a b, shown (a ++ b) = shown a ++ shown b := by intro a b; simp [shown]
  unfold replaceFields
  rw [app, app, app]
  refine Eq.trans (congrArg₂ (· ++ ·) (congrArg₂ (· ++ ·) (congrArg₂ (· ++ ·)
    (congrArg (fun f => shown [(ascii "From", f)]) e1) e2) e3) rfl) ?_
  simp only [shown, List.map_cons, List.map_nil, List.flatten_cons, List.flatten_nil, List.append_nil]
  rw [show ascii "From" ++ ascii ": " = ascii "From: " by decide, show ascii "Message-ID" ++ ascii ": " = ascii "Message-ID: " by decide]
  simp

/-- **C58 (2).** `replace` of the message itself: it consists of what is kept of the header fields, the new header fields,
and the new text. -/
theorem replace_message (ct : N) (x : Names N) (c : Ctx N) {p} (hp : c.msg.parts[0]? = some p) (hs : 0 < p.stop)
    (hl : p.stop ≤ c.msg.raw.length) (r : Replacement) {kept : List Bytes} {new : Bytes}
    (hk : List.Forall₂ (KeptAs x r c.msg.raw) p.headers kept) (hn : NewLines x r p.headers new) (fuel : Nat) :
    ∃ c', replace x c 0 r fuel = some c' ∧ Writes ct c'.msg
      (kept.flatten ++ new ++ (if r.mime then [] else ascii "Content-Type: text/plain; charset=utf-8\r\n" ++ crlf)
        ++ r.body ++ c.msg.raw.drop p.stop) := by
  obtain ⟨ks, k1, k2⟩ := kept_lines x r c.msg.raw p.headers kept hk
  have := replace_whole ct x c hp hs hl r k1 fuel
  rwa [k2, newLines_eq hn] at this

/-! ## Examples -/

/-- A message with two parts, the first of which has a part itself. -/
def sample : Ctx Bytes :=
  ⟨⟨ascii "Subject: s\r\nTo: a\r\n\r\n-x\r\n\r\n-y\r\nT: p\r\n\r\np\r\n-y-\r\n-x\r\nT: q\r\n\r\nq\r\n-x-\r\n",
    [.mk [⟨ascii "Subject", ⟨ascii "Subject", ascii "s", 0, 8, 12⟩⟩, ⟨ascii "To", ⟨ascii "To", ascii "a", 12, 15, 19⟩⟩] 0 21 67 false (.multipart [1, 3]),
     .mk [] 25 27 47 false (.multipart [2]),
     .mk [⟨ascii "T", ⟨ascii "T", ascii "p", 31, 33, 37⟩⟩] 31 39 40 false (.text (ascii "p")),
     .mk [⟨ascii "T", ⟨ascii "T", ascii "q", 51, 53, 57⟩⟩] 51 59 60 false (.text (ascii "q"))]⟩, 67⟩

/-- Header names are their spelling. -/
def names : Names Bytes where
  other := id
  parse b := if b = [] then none else some b
  prot _ := false
  clean b := b.filter fun c => c ≠ 13 ∧ c ≠ 10
  date := ascii "Date"
  «from» := ascii "From"
  messageId := ascii "Message-ID"
  kind h := if h.name = ascii "Subject" then .subject else if h.name = ascii "From" then .from
    else if h.name = ascii "Date" then .date else if h.name = ascii "To" then .recipient else .other

def ct : Bytes := ascii "Content-Type"

theorem sample_original : Original sample 67 := by
  refine ⟨?_, ⟨.node 0 [.node 1 [.node 2 []], .node 3 []], ?_, rfl, ?_⟩, by decide⟩
  · refine .multi rfl rfl (.cons rfl (by decide) (by decide) (by decide) (.cons rfl (by decide) (by decide) (by decide) (.nil (by decide)))) (by decide) rfl rfl
      (.cons (by decide) (.multi rfl rfl (.nil (by decide)) (by decide) rfl rfl
        (.cons (by decide) (.leaf rfl rfl (.cons rfl (by decide) (by decide) (by decide) (.nil (by decide))) (by decide) rfl (by decide) (by decide) (by intro s h; cases h)) .nil) (by decide) (by decide))
      (.cons (by decide) (.leaf rfl rfl (.cons rfl (by decide) (by decide) (by decide) (.nil (by decide))) (by decide) rfl (by decide) (by decide) (by intro s h; cases h)) .nil)) (by decide) (by decide)
  · refine .multi rfl rfl ?_
    intro t ht
    simp only [List.mem_cons, List.not_mem_nil, or_false] at ht
    rcases ht with rfl | rfl
    · refine .multi rfl rfl ?_
      intro t ht
      simp only [List.mem_singleton] at ht
      subst ht
      exact .leaf rfl rfl
    · exact .leaf rfl rfl
  · rfl

/-- It is written as it was read. -/
example : Writes ct sample.msg sample.msg.raw := untouched_partial ct sample.msg sample_original.intact

/-- Edits of its header fields. -/
example : (applyAll names sample [.add 2 (ascii "X") (ascii "y") true, .delete 0 (ascii "T") (some 1) true (fun _ => true)]).map
    (fun c => (build ct 20 c.msg, c.size)) = some (some (some (ascii "Subject: s\r\nTo: a\r\n\r\n-x\r\n\r\n-y\r\nX: y\r\n\r\np\r\n-y-\r\n-x\r\n\r\nq\r\n-x-\r\n")), 61) := by
  decide +kernel

def new : Replacement := ⟨ascii "new", false, some (ascii "t"), none, ascii "u", ascii "now", ascii "<i>"⟩

example : (replace names sample 3 new 9).map (fun c => build ct 20 c.msg) = some (some (some (ascii "Subject: s\r\nTo: a\r\n\r\n-x\r\n\r\n-y\r\nT: p\r\n\r\np\r\n-y-\r\n-x\r\nContent-Type: text/plain; charset=utf-8\r\n\r\nnew\r\n-x-\r\n"))) := by
  decide +kernel

example : (replace names sample 0 new 9).map (fun c => build ct 20 c.msg) = some (some (some (ascii
    "Original-Subject: s\r\nTo: a\r\nFrom: u\r\nSubject: t\r\nDate: now\r\nMessage-ID: <i>\r\nContent-Type: text/plain; charset=utf-8\r\n\r\nnew"))) := by
  decide +kernel

/-- What is kept of the header fields there, and the new ones. -/
example : List.Forall₂ (KeptAs names new sample.msg.raw) [⟨ascii "Subject", ⟨ascii "Subject", ascii "s", 0, 8, 12⟩⟩,
    ⟨ascii "To", ⟨ascii "To", ascii "a", 12, 15, 19⟩⟩] [ascii "Original-Subject: s\r\n", ascii "To: a\r\n"]
    ∧ NewLines names new [⟨ascii "Subject", ⟨ascii "Subject", ascii "s", 0, 8, 12⟩⟩, ⟨ascii "To", ⟨ascii "To", ascii "a", 12, 15, 19⟩⟩]
      (ascii "From: u\r\nSubject: t\r\nDate: now\r\nMessage-ID: <i>\r\n") := by
  refine ⟨.cons (.subjectRenamed (by decide) rfl
      (.received (v := ascii " s\r\n") (by decide) ⟨sample.msg.raw.take 8, sample.msg.raw.drop 12, by decide +kernel, rfl, rfl⟩))
    (.cons (.recipient (by decide) (.received (by decide) (by decide)
      ⟨sample.msg.raw.take 12, sample.msg.raw.drop 19, by decide +kernel, rfl, rfl⟩)) .nil), ?_⟩
  exact ⟨ascii "u", ascii "Subject: t\r\n", ascii "Date: now\r\n", by decide +kernel, Or.inr ⟨Or.inl rfl, rfl⟩,
    Or.inl ⟨ascii "t", rfl, by decide, by decide +kernel⟩, Or.inr ⟨by decide, by decide +kernel⟩⟩

def envelope : Enclosure := ⟨ascii "text", none, some (ascii "s"), ascii "b", [(ascii "X", ascii "y")], ascii "u", ascii "now", ascii "<i>"⟩

example : build ct 30 (enclose names sample envelope).msg = some (some (ascii "Content-Type: multipart/mixed; boundary=\"b\"\r\nSubject: s\r\nX: y\r\nFrom: u\r\nDate: now\r\nMessage-ID: <i>\r\n\r\n--b\r\nContent-Type: text/plain; charset=utf-8\r\n\r\ntext\r\n--b\r\nContent-Type: message/rfc822\r\n\r\n"
    ++ sample.msg.raw ++ ascii "\r\n--b--\r\n")) := by
  decide +kernel
example : ∀ f ∈ envelope.fields, names.other f.1 ≠ ct := by decide

/-! ## Counterexamples -/

/-- **Negation of C37 (1).** An empty line that ends in a bare LF is changed. -/
theorem bare_newline_changed :
    let m : Msg Bytes := ⟨ascii "A: b\n\nx", [.mk [⟨ascii "A", ⟨ascii "A", ascii "b", 0, 2, 5⟩⟩] 0 6 7 false (.text (ascii "x"))]⟩
    build ct 9 m = some (some (ascii "A: b\n\r\nx")) := by
  decide +kernel

/-- **Negation of C56 (1).** The empty line after the header of a replaced part is not counted. -/
theorem replace_size_off :
    (replace names sample 3 new 9).map (fun c => ((build ct 20 c.msg).map (Option.map List.length), c.size + 2))
      = (replace names sample 3 new 9).map (fun c => ((build ct 20 c.msg).map (Option.map List.length), ((build ct 20 c.msg).bind id).elim 0 List.length)) := by
  decide +kernel

/-- **Negation of C56 (2).** The size of an enclosed message is too small by four. -/
theorem enclose_size_off :
    (build ct 30 (enclose names sample envelope).msg).map (Option.map List.length) = some (some ((enclose names sample envelope).size + 4)) := by
  decide +kernel

/-- **Negation of C57 (1).** If `:headers` has a `Content-Type`, the parts are not separated by the boundary announced. -/
theorem enclose_wrong_boundary :
    build ct 30 (enclose names ⟨⟨ascii "\r\n", [.mk [] 0 2 2 false (.text [])]⟩, 2⟩ ⟨ascii "t", none, none, ascii "b", [(ascii "Content-Type", ascii "x/y")], [], [], []⟩).msg
      = some (some (ascii "Content-Type: multipart/mixed; boundary=\"b\"\r\nSubject: \r\nContent-Type: x/y\r\nFrom: \r\nDate: \r\nMessage-ID: \r\n\r\n--invalid-boundary\r\nContent-Type: text/plain; charset=utf-8\r\n\r\nt\r\n--invalid-boundary\r\nContent-Type: message/rfc822\r\n\r\n\r\n\r\n--invalid-boundary--\r\n")) := by
  decide +kernel

/-- **Negation of C57 (2).** A line break in the decoded subject of the message starts another header field; the same
subject given by the script does not. -/
theorem enclose_subject_injects :
    shown (enclosureFields names ⟨[], none, some (ascii "s\r\nBcc: x"), [], [], [], [], []⟩)
      = ascii "Content-Type: multipart/mixed; boundary=\"\"\r\nSubject: s\r\nBcc: x\r\nFrom: \r\nDate: \r\nMessage-ID: \r\n"
    ∧ shown (enclosureFields names ⟨[], some (ascii "s\r\nBcc: x"), none, [], [], [], [], []⟩)
      = ascii "Content-Type: multipart/mixed; boundary=\"\"\r\nSubject: sBcc: x\r\nFrom: \r\nDate: \r\nMessage-ID: \r\n" := by
  decide +kernel

/-- The parts `foreverypart` goes through, in order, when the action is done for each of them; `none` is a crash. -/
def forEvery (act : Ctx Bytes → Nat → Option (Ctx Bytes)) : List Nat → Ctx Bytes → Option (Ctx Bytes)
  | [], c => some c
  | i :: is, c => (act c i).bind (forEvery act is)

/-- **Negation of C58 (1).** `foreverypart` with `replace` crashes on a message that has parts. -/
theorem replace_crashes :
    Mime.findNestedPartsIds sample.msg.mime 0 true 9 = some [0, 1, 2, 3]
    ∧ (forEvery (fun c i => replace names c i new 9) [0, 1, 2, 3] sample).isNone = true := by
  decide +kernel

/-- **Negation of C58 (2).** After part 1, which has a part, has been replaced, part 3 has the number 2, but the message
still refers to it by 3: an edit of it is lost. -/
theorem replace_shifts_parts :
    (replace names sample 1 new 9).map (fun c => c.msg.parts[2]?.map Part.header) = some (sample.msg.parts[3]?.map Part.header)
    ∧ (replace names sample 1 new 9).map (fun c => c.msg.parts[3]?.map Part.header) = some none
    ∧ ((replace names sample 1 new 9).bind fun c => addHeader names c 2 (ascii "X") (ascii "y") true).map (fun c => build ct 20 c.msg)
      = (replace names sample 1 new 9).map (fun c => build ct 20 c.msg) := by
  decide +kernel

end Sieve.Build
