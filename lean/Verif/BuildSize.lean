import Verif.BuildReplace

/-!
# C56: the size after `replace` and `enclose`

How far the size that the runtime keeps is from the number of bytes that are written.
-/

namespace Sieve.Build

open Sieve.Mime (Header)

variable {N : Type} [DecidableEq N]

theorem shown_length (l : List (Bytes × Bytes)) : (shown l).length = (l.map fun f => f.1.length + f.2.length + 4).sum := by
  unfold shown
  induction l with
  | nil => rfl
  | cons f l ih =>
    simp only [List.map_cons, List.flatten_cons, List.length_append, ih, List.sum_cons]
    rw [show (ascii ": ").length = 2 from rfl, show crlf.length = 2 from rfl]
    omega

theorem fields_length (x : Names N) (l : List (Bytes × Bytes)) :
    ((newFields x l).map fun h => h.value.spelling.length + h.value.text.length + 4).sum = (shown l).length := by
  rw [shown_length]
  simp [newFields, newField, Function.comp_def]

/-- **C56 (2).** The size of an enclosed message is too small by four, always: the empty lines after the header of the two parts are not
counted. -/
theorem enclose_size_partial (ct : N) (x : Names N) (c : Ctx N) (e : Enclosure) {y} (hy : Whole ct c.msg y) (hz : c.size = y.length)
    (hct : x.other (ascii "Content-Type") = ct)
    (hne : ∀ n ∈ [ascii "Subject", ascii "From", ascii "Date", ascii "Message-ID"], x.other n ≠ ct)
    (hf : ∀ f ∈ e.fields, x.other f.1 ≠ ct) (hb : e.bnd ≠ []) (hq : (34 : UInt8) ∉ e.bnd) :
    ∃ z, Writes ct (enclose x c e).msg z ∧ z.length = (enclose x c e).size + 4 := by
  refine ⟨_, writes_whole (enclose_partial ct x c e hy hct hne hf hb hq), ?_⟩
  have h0 : (enclose x c e).msg.parts.map (fun p => (p.headers.map fun h => h.value.spelling.length + h.value.text.length + 4).sum) =
      [(shown (enclosureFields x e)).length, (shown [(ascii "Content-Type", ascii "text/plain; charset=utf-8")]).length,
        (shown [(ascii "Content-Type", ascii "message/rfc822")]).length] := by
    rw [enclose_parts]
    simp only [List.map_cons, List.map_nil, Part.headers, fields_length]
  have h1 : (enclose x c e).size = c.size + (((e.bnd.length + 6) * 3) + e.body.length + 2) +
      ((enclose x c e).msg.parts.map fun p => (p.headers.map fun h => h.value.spelling.length + h.value.text.length + 4).sum).sum := by
    simp only [enclose, List.map_cons, List.map_nil, Part.headers, List.sum_cons, List.sum_nil]
    omega
  rw [h1, h0, hz]
  simp only [List.sum_cons, List.sum_nil, List.length_append]
  rw [show (shown [(ascii "Content-Type", ascii "text/plain; charset=utf-8")]).length = 41 by decide +kernel,
    show (shown [(ascii "Content-Type", ascii "message/rfc822")]).length = 30 by decide +kernel,
    show (ascii "Content-Type: text/plain; charset=utf-8\r\n").length = 41 by decide +kernel,
    show (ascii "Content-Type: message/rfc822\r\n").length = 30 by decide +kernel, show crlf.length = 2 from rfl, show (ascii "--").length = 2 from rfl]
  omega

/-- The size after `replace` of the message itself. -/
theorem replace_size (x : Names N) (c : Ctx N) {p} (hp : c.msg.parts[0]? = some p) (r : Replacement) {fuel : Nat} {c'}
    (h : replace x c 0 r fuel = some c') (hb : p.body ≠ 0) :
    c'.size = c.size + r.body.length - (p.stop - p.header) + (p.headers.map (keepSize x r)).sum +
      (shown (replaceFields x r p.headers)).length + (if r.mime then 0 else 41) := by
  have hn : ∃ ids, Mime.findNestedPartsIds c.msg.mime 0 false fuel = some ids ∧ (∀ i ∈ ids, i ≠ 0 ∧ i < c.msg.parts.length) ∧ ids.Nodup := by
    have hlen : c.msg.mime.length = c.msg.parts.length := by simp [Msg.mime]
    unfold Mime.findNestedPartsIds
    rw [if_pos rfl]
    simp only [Bool.false_eq_true, if_false]
    by_cases h1 : 1 < c.msg.mime.length
    · rw [if_pos h1]
      refine ⟨_, rfl, ?_, List.nodup_range'⟩
      intro i hi
      rw [List.mem_range'_1] at hi
      omega
    · rw [if_neg h1]
      exact ⟨[], rfl, by simp, List.nodup_nil⟩
  obtain ⟨ids, hn, hids, hnd⟩ := hn
  obtain ⟨ps, hps, hr⟩ := removeParts_zero c.msg.parts ids hids hnd
  rw [hp] at hr
  simp only [replace, hn, hps, hr, Option.bind_eq_bind, Option.bind_some, if_true, if_pos hb] at h
  cases h
  simp only [List.map_append, List.sum_append, shown_length]
  cases r.mime
  · simp only [Bool.false_eq_true, if_false, List.map_cons, List.map_nil, List.sum_cons, List.sum_nil]
    rw [show (ascii "Content-Type").length = 12 from rfl, show (ascii "text/plain; charset=utf-8").length = 25 from rfl]
    omega
  · simp

/-- A header field as received: its name, directly followed by a colon, and its text. -/
structure Received (x : Names N) (h : Header N Val) : Prop where
  order : h.value.field < h.value.start ∧ h.value.start ≤ h.value.stop
  subject : x.kind h = .subject → h.value.start = h.value.field + (ascii "Subject:").length
  «from» : x.kind h = .from → h.value.start = h.value.field + (ascii "From:").length

theorem at_length {raw : Bytes} {a b : Nat} {v : Bytes} (h : At raw a b v) : a + v.length = b := by
  obtain ⟨pre, post, -, rfl, rfl⟩ := h
  simp

theorem stands_length {raw : Bytes} {h : Header N Val} {l : Bytes} (hs : Stands raw h l) (h1 : h.value.field < h.value.start)
    (h2 : h.value.start ≤ h.value.stop) : l.length = h.value.stop - h.value.field := by
  cases hs with
  | received _ _ h3 =>
    have := at_length h3
    omega
  | renamed _ h3 _ => omega
  | added h3 => omega

theorem under_length {raw : Bytes} {h : Header N Val} {name l : Bytes} (hs : Under raw h name l) (h1 : h.value.field < h.value.start)
    (h2 : h.value.start ≤ h.value.stop) : l.length = name.length + 1 + (h.value.stop - h.value.start) := by
  cases hs with
  | received _ h3 =>
    have := at_length h3
    simp only [List.length_append]
    rw [show (ascii ":").length = 1 from rfl]
    omega
  | added h3 => omega

theorem kept_length (x : Names N) (r : Replacement) (raw : Bytes) : ∀ (hs : List (Header N Val)) (ls : List Bytes),
    (∀ h ∈ hs, Received x h) → List.Forall₂ (KeptAs x r raw) hs ls → ls.flatten.length = (hs.map (keepSize x r)).sum
  | [], _, _, h => by
    cases h
    rfl
  | h :: hs, _, hr, hf => by
    cases hf with
    | @cons _ l _ ls h1 h2 =>
    have ih := kept_length x r raw hs ls (fun h hh => hr h (List.mem_cons_of_mem _ hh)) h2
    obtain ⟨⟨o1, o2⟩, o3, o4⟩ := hr h (List.mem_cons_self ..)
    simp only [List.flatten_cons, List.length_append, ih, List.map_cons, List.sum_cons]
    congr 1
    cases h1 with
    | date h1 h2 => simp only [keepSize, h1, stands_length h2 o1 o2]
    | recipient h1 h2 => simp only [keepSize, h1, stands_length h2 o1 o2]
    | subject h1 h3 h2 => simp [keepSize, h1, h3, stands_length h2 o1 o2]
    | subjectRenamed h1 h3 h2 =>
      have := o3 h1
      rw [show (ascii "Subject:").length = 8 from rfl] at this
      simp only [keepSize, h1, h3, under_length h2 o1 o2, Option.isSome_some, if_true]
      rw [show (ascii "Original-Subject").length = 16 from rfl]
      omega
    | «from» h1 h3 h2 => simp [keepSize, h1, h3, stands_length h2 o1 o2]
    | fromRenamed h1 h3 h2 =>
      have := o4 h1
      rw [show (ascii "From:").length = 5 from rfl] at this
      simp only [keepSize, h1, h3, under_length h2 o1 o2, Option.isSome_some, if_true]
      rw [show (ascii "Original-From").length = 13 from rfl]
      omega
    | dropped h1 => simp [keepSize, h1]

/-- **C56 (3).** The size after `replace` of a message as received is right with `:mime`, and too small by two without: the empty line after
the header is not counted. -/
theorem replace_message_size_partial (ct : N) (x : Names N) (c : Ctx N) {p} (hp : c.msg.parts[0]? = some p) (h0 : p.header = 0) (hb : p.body ≠ 0)
    (hs : 0 < p.stop) (hl : p.stop ≤ c.msg.raw.length) (hz : c.size = c.msg.raw.length) (hR : ∀ h ∈ p.headers, Received x h) (r : Replacement)
    {kept : List Bytes} {new : Bytes} (hk : List.Forall₂ (KeptAs x r c.msg.raw) p.headers kept) (hn : NewLines x r p.headers new) (fuel : Nat) :
    ∃ c' z, replace x c 0 r fuel = some c' ∧ Writes ct c'.msg z ∧ z.length = c'.size + if r.mime then 0 else 2 := by
  obtain ⟨c', h1, h2⟩ := replace_message ct x c hp hs hl r hk hn fuel
  refine ⟨c', _, h1, h2, ?_⟩
  rw [replace_size x c hp r h1 hb, ← kept_length x r c.msg.raw _ _ hR hk, newLines_eq hn, hz, h0]
  simp only [List.length_append, List.length_drop]
  cases r.mime
  · simp only [Bool.false_eq_true, if_false, List.length_append]
    rw [show (ascii "Content-Type: text/plain; charset=utf-8\r\n").length = 41 by decide +kernel, show crlf.length = 2 from rfl]
    omega
  · simp only [if_true, List.length_nil]
    omega

mutual
theorem put_absent (i : Nat) (new : Tree) : ∀ t : Tree, i ∉ t.ids → put i new t = t
  | .node j fs sep ks rest, h => by
    simp only [Tree.ids, List.mem_cons, not_or] at h
    rw [put, if_neg (Ne.symm h.1), puts_absent i new ks h.2]
theorem puts_absent (i : Nat) (new : Tree) : ∀ ks, i ∉ Tree.ids.forest ks → put.puts i new ks = ks
  | [], _ => rfl
  | (x, t) :: ks, h => by
    simp only [Tree.ids.forest, List.mem_append, not_or] at h
    rw [put.puts, put_absent i new t h.1, puts_absent i new ks h.2]
end

/-- With another part in the place of part `i` an untouched message is longer by the new part and shorter by the text
from where part `i` started to where it ended. -/
theorem intact_put {raw : Bytes} {parts : List (Part N)} {i : Nat} {p : Part N} (hp : parts[i]? = some p) (new : Tree) {id a b}
    (h : Intact raw parts id a b) :
    ∃ t, Shows raw parts id a b t ∧ t.text = cut raw a b ∧ a ≤ b ∧ b ≤ raw.length ∧
      (i ∈ t.ids → t.ids.Nodup → (put i new t).text.length + (p.stop - p.header) = t.text.length + new.text.length ∧ p.stop - p.header ≤ t.text.length ∧ p.body ≠ 0) := by
  have here : ∀ {a b : Nat}, p.header = a → p.stop = b → a ≤ b → b ≤ raw.length → (cut raw a b).length = p.stop - p.header := by
    intro a b h1 h2 h3 h4
    simp only [cut, List.length_drop, List.length_take]
    omega
  refine Intact.rec (motive_1 := fun id a b _ => ∃ t, Shows raw parts id a b t ∧ t.text = cut raw a b ∧ a ≤ b ∧ b ≤ raw.length ∧
      (i ∈ t.ids → t.ids.Nodup → (put i new t).text.length + (p.stop - p.header) = t.text.length + new.text.length ∧ p.stop - p.header ≤ t.text.length ∧ p.body ≠ 0))
    (motive_2 := fun s subs e _ => e ≤ raw.length → ∃ ks, ShowsAll raw parts s subs ks e ∧ Tree.text.texts ks = cut raw s e ∧ s ≤ e ∧
      (i ∈ Tree.ids.forest ks → (Tree.ids.forest ks).Nodup →
        (Tree.text.texts (put.puts i new ks)).length + (p.stop - p.header) = (Tree.text.texts ks).length + new.text.length ∧
          p.stop - p.header ≤ (Tree.text.texts ks).length ∧ p.body ≠ 0))
    ?_ ?_ ?_ ?_ h
  · intro id q a b e h1 h2 h3 h4 h5 h6 h7 h8
    obtain ⟨t1, t2, fs, t3, t4⟩ := tiles_lines h3
    obtain ⟨s1, s2, s3⟩ := slice_some h4
    have hlen := congrArg List.length s3
    simp only [crlf, List.length_cons, List.length_nil, List.length_drop, List.length_take] at hlen
    have ht : (Tree.node id fs crlf [] (cut raw q.body b)).text = cut raw a b := by
      simp only [Tree.text, Tree.text.texts, List.append_nil]
      rw [t4, s3]
      change cut raw a e ++ cut raw e q.body ++ _ = _
      rw [cut_append t1 s1 s2, cut_append (by omega) h6 h7]
    refine ⟨_, .leaf h1 (by omega) h8 h2 h5 t3 (slice_cut h6 h7), ht, by omega, h7, ?_⟩
    intro hi _
    simp only [Tree.ids, Tree.ids.forest, List.mem_singleton] at hi
    subst hi
    rw [hp] at h1
    injection h1 with h1
    subst h1
    rw [ht, here h2 h5 (by omega) h7, put, if_pos rfl]
    omega
  · intro id q a b e subs e' h1 h2 h3 h4 h5 h6 _ h8 h9 ih
    obtain ⟨t1, t2, fs, t3, t4⟩ := tiles_lines h3
    obtain ⟨s1, s2, s3⟩ := slice_some h4
    have hlen := congrArg List.length s3
    simp only [crlf, List.length_cons, List.length_nil, List.length_drop, List.length_take] at hlen
    obtain ⟨ks, k1, k2, k3, k4⟩ := ih (by omega)
    have ht : (Tree.node id fs crlf ks (cut raw e' b)).text = cut raw a b := by
      simp only [Tree.text]
      rw [t4, s3, k2]
      change cut raw a e ++ cut raw e q.body ++ _ ++ _ = _
      rw [cut_append t1 s1 s2, cut_append (by omega) k3 (by omega), cut_append (by omega) h8 h9]
    refine ⟨_, .multi h1 (by omega) h6 h2 h5 t3 k1 (slice_cut h8 h9), ht, by omega, h9, ?_⟩
    intro hi hd
    simp only [Tree.ids] at hi hd
    obtain ⟨d1, d2⟩ := List.nodup_cons.mp hd
    by_cases hid : id = i
    · subst hid
      rw [hp] at h1
      injection h1 with h1
      subst h1
      rw [ht, here h2 h5 (by omega) h9, put, if_pos rfl]
      omega
    · rcases List.mem_cons.mp hi with hi | hi
      · exact absurd hi.symm hid
      · obtain ⟨k5, k6, k7⟩ := k4 hi d2
        refine ⟨?_, ?_, k7⟩
        · rw [put, if_neg hid]
          simp only [Tree.text, List.length_append]
          omega
        · simp only [Tree.text, List.length_append]
          omega
  · intro s _
    exact ⟨[], .nil, by simp [Tree.text.texts, cut_self], Nat.le_refl _, (fun hi => by simp [Tree.ids.forest] at hi)⟩
  · intro s id a b subs e h1 _ _ i1 i2 he
    obtain ⟨t, t1, t2, t3, t4, t5⟩ := i1
    obtain ⟨ks, k1, k2, k3, k4⟩ := i2 he
    refine ⟨_, .cons (slice_cut h1 (by omega)) t1 k1, ?_, by omega, ?_⟩
    · simp only [Tree.text.texts]
      rw [t2, k2, cut_append h1 t3 t4, cut_append (by omega) k3 he]
    · intro hi hd
      simp only [Tree.ids.forest] at hi hd
      obtain ⟨d1, d2, d3⟩ := List.nodup_append.mp hd
      rcases List.mem_append.mp hi with hi | hi
      · have hn : i ∉ Tree.ids.forest ks := fun hm => d3 i hi i hm rfl
        obtain ⟨t6, t7, t8⟩ := t5 hi d1
        refine ⟨?_, ?_, t8⟩
        · simp only [put.puts, puts_absent i new ks hn, Tree.text.texts, List.length_append]
          omega
        · simp only [Tree.text.texts, List.length_append]
          omega
      · have hn : i ∉ t.ids := fun hm => d3 i hm i hi rfl
        obtain ⟨k5, k6, k7⟩ := k4 hi d2
        refine ⟨?_, ?_, k7⟩
        · simp only [put.puts, put_absent i new t hn, Tree.text.texts, List.length_append]
          omega
        · simp only [Tree.text.texts, List.length_append]
          omega

/-- **C56 (4).** After `replace` of a part of a message as it was received, other than the message itself and without
parts, the recorded size is the length of what is written with `:mime`, and is too small by two without.

What is missing: messages that were edited before, and parts that have parts. -/
theorem replace_part_size_partial (ct : N) (x : Names N) {c : Ctx N} {b} (h : Original c b) {part : Nat} {p}
    (h0 : part ≠ 0) (hp : c.msg.parts[part]? = some p) (hm : ∀ subs, p.content ≠ .multipart subs) (r : Replacement) (fuel : Nat) :
    ∃ c' z, replace x c part r fuel = some c' ∧ Writes ct c'.msg z ∧ z.length = c'.size + if r.mime then 0 else 2 := by
  obtain ⟨t, h1, h2, _, h4, h5⟩ := intact_put hp (if r.mime then .node part [] [] [] r.body
        else .node part [ascii "Content-Type: text/plain; charset=utf-8\r\n"] crlf [] r.body) h.intact
  obtain ⟨u, u1, u2, u3⟩ := h.tree
  have hids : u.preorder = t.ids := by
    obtain ⟨v, v1, v2, v3⟩ := (shows_shape h1).1
    rw [← v3, represents_unique u1 v v2 (by rw [v1, u2])]
  rw [hids] at u3
  obtain ⟨h6, hge, h7⟩ := h5 (u3.symm.subset (List.mem_range.mpr (List.getElem?_eq_some_iff.mp hp).1)) (u3.nodup_iff.mpr List.nodup_range)
  obtain ⟨c', r1, _, r2⟩ := replace_part_partial ct x c h1 h0 hp hm r fuel
  refine ⟨c', _, r1, r2, ?_⟩
  have hn : Mime.findNestedPartsIds c.msg.mime part false fuel = some [] := by
    unfold Mime.findNestedPartsIds
    rw [if_neg h0, show c.msg.mime[part]? = some p.mime from mime_get hp]
    have : p.mime.body = .other := by
      unfold Part.mime Content.mime
      show (match p.content with | .multipart subs => Mime.Body.multipart subs | _ => .other) = .other
      split
      · rename_i subs hs
        exact absurd hs (hm subs)
      · rfl
    simp [this]
  have hr : removeParts c.msg.parts [] = some c.msg.parts := by simp [removeParts]
  simp only [replace, hn, hr, hp, Option.bind_eq_bind, Option.bind_some, if_neg h0, List.nil_append, if_pos h7] at r1
  injection r1 with r1
  rw [← r1]
  have hz := h.size
  have hc : t.text.length = b := by
    rw [h2]
    simp only [cut, List.length_drop, List.length_take]
    omega
  simp only [List.length_append, List.length_drop]
  cases hmime : r.mime with
  | true =>
    simp only [hmime, if_true, Tree.text, Tree.text.texts, List.flatten_nil, List.nil_append, List.map_nil, List.sum_nil] at h6 ⊢
    omega
  | false =>
    simp only [hmime, Bool.false_eq_true, if_false, Tree.text, Tree.text.texts, List.flatten_cons, List.flatten_nil, List.append_nil,
      List.length_append, List.map_cons, List.map_nil, List.sum_cons, List.sum_nil] at h6 ⊢
    have e1 : (ascii "Content-Type: text/plain; charset=utf-8\r\n").length = 41 := by decide +kernel
    have e2 : (ascii "Content-Type").length = 12 := by decide +kernel
    have e3 : (ascii "text/plain; charset=utf-8").length = 25 := by decide +kernel
    have e4 : crlf.length = 2 := rfl
    omega

/-- The header of the new part. -/
def plainField (x : Names N) (r : Replacement) : List (Header N Val) :=
  if r.mime then [] else [newField (x.other (ascii "Content-Type")) (ascii "Content-Type") (ascii "text/plain; charset=utf-8")]

theorem replace_text (x : Names N) (c : Ctx N) {part : Nat} (h0 : part ≠ 0) {p : Part N} {t : Bytes} (hp : c.msg.parts[part]? = some p)
    (hb : p.body = 0) (ht : p.content = .text t) (r : Replacement) (fuel : Nat) :
    replace x c part r fuel = some ⟨{ c.msg with parts := c.msg.parts.set part (.mk (plainField x r) p.header 0 p.stop (!r.mime) (.text r.body)) },
      c.size + r.body.length - t.length + if r.mime then 0 else 41⟩ := by
  have hn : Mime.findNestedPartsIds c.msg.mime part false fuel = some [] := by
    unfold Mime.findNestedPartsIds
    rw [if_neg h0, show c.msg.mime[part]? = some p.mime from mime_get hp]
    have : p.mime.body = .other := by
      unfold Part.mime Content.mime
      show (match p.content with | .multipart subs => Mime.Body.multipart subs | _ => .other) = .other
      rw [ht]
    simp [this]
  have hr : removeParts c.msg.parts [] = some c.msg.parts := by simp [removeParts]
  have e2 : (ascii "Content-Type").length = 12 := by decide +kernel
  have e3 : (ascii "text/plain; charset=utf-8").length = 25 := by decide +kernel
  simp only [replace, hn, hr, hp, Option.bind_eq_bind, Option.bind_some, if_neg h0, List.nil_append, hb, ht, plainField]
  cases r.mime <;> simp [e2, e3]

/-- **Negation of C56 (4).** A part that was replaced can be replaced again by the same text; the message is the same, but the size grows by
the header field that was counted before. -/
theorem replace_again_size (x : Names N) (c : Ctx N) {part : Nat} (h0 : part ≠ 0) (r : Replacement) (hm : r.mime = false) {fuel : Nat} {c'}
    (h : replace x c part r fuel = some c') (hz : r.body.length ≤ c'.size) (fuel' : Nat) :
    ∃ c'', replace x c' part r fuel' = some c'' ∧ c''.msg = c'.msg ∧ c''.size = c'.size + 41 := by
  have hq : ∃ (ps : List (Part N)) (p : Part N), c'.msg.parts = ps.set part (.mk (plainField x r) p.header 0 p.stop true (.text r.body)) ∧ part < ps.length := by
    unfold replace at h
    simp only [Option.bind_eq_bind, Option.bind_eq_some_iff, if_neg h0, hm] at h
    obtain ⟨ids, -, ps, -, p, hp, h⟩ := h
    cases h
    exact ⟨ps, p, by simp [plainField, hm], (List.getElem?_eq_some_iff.1 hp).1⟩
  obtain ⟨ps, p, hq, hl⟩ := hq
  have hp : c'.msg.parts[part]? = some (.mk (plainField x r) p.header 0 p.stop true (.text r.body)) := by simp [hq, hl]
  refine ⟨_, replace_text x c' h0 hp rfl rfl r fuel', ?_, ?_⟩
  · show ({ c'.msg with parts := _ } : Msg N) = c'.msg
    have : c'.msg.parts.set part (.mk (plainField x r) p.header 0 p.stop true (.text r.body)) = c'.msg.parts := by
      rw [hq, List.set_set]
    simp only [hm, Bool.not_false]
    exact congrArg (Msg.mk c'.msg.raw) this
  · simp only [hm, Bool.false_eq_true, if_false]
    omega

/-- The conditions are met by part 3 of `sample`. -/
example : ∃ c', replace names sample 3 new 9 = some c' ∧ new.mime = false ∧ new.body.length ≤ c'.size := by
  refine ⟨_, rfl, rfl, by decide +kernel⟩

/-! ## Examples -/

/-- The conditions are met by part 3 of `sample`. -/
example : ∃ c' z, replace names sample 3 new 9 = some c' ∧ Writes ct c'.msg z ∧ z.length = c'.size + 2 :=
  replace_part_size_partial ct names sample_original (by decide) rfl (fun subs h => by cases h) new 9

/-- The conditions are met by `sample`. -/
example : ∃ c' z, replace names sample 0 new 9 = some c' ∧ Writes ct c'.msg z ∧ z.length = c'.size + 2 := by
  refine replace_message_size_partial ct names sample rfl rfl (by decide) (by decide) (by decide) (by decide +kernel) ?_ new
    (kept := [ascii "Original-Subject: s\r\n", ascii "To: a\r\n"]) (new := ascii "From: u\r\nSubject: t\r\nDate: now\r\nMessage-ID: <i>\r\n") ?_ ?_ 9
  · intro h hh
    simp only [Part.headers, List.mem_cons, List.not_mem_nil, or_false] at hh
    rcases hh with rfl | rfl
    · exact ⟨by decide, fun _ => rfl, (fun h => by cases h)⟩
    · exact ⟨by decide, (fun h => by cases h), (fun h => by cases h)⟩
  · exact .cons (.subjectRenamed (by decide) rfl
      (.received (v := ascii " s\r\n") (by decide) ⟨sample.msg.raw.take 8, sample.msg.raw.drop 12, by decide +kernel, rfl, rfl⟩))
      (.cons (.recipient (by decide) (.received (by decide) (by decide)
        ⟨sample.msg.raw.take 12, sample.msg.raw.drop 19, by decide +kernel, rfl, rfl⟩)) .nil)
  · exact ⟨ascii "u", ascii "Subject: t\r\n", ascii "Date: now\r\n", by decide +kernel, Or.inr ⟨Or.inl rfl, rfl⟩,
      Or.inl ⟨ascii "t", rfl, by decide, by decide +kernel⟩, Or.inr ⟨by decide, by decide +kernel⟩⟩

/-- The size is wrong even with `:mime` if the name of a field that is renamed is followed by a space. -/
example : (replace names ⟨⟨ascii "Subject : s\r\n\r\nx", [.mk [⟨ascii "Subject", ⟨ascii "Subject", ascii "s", 0, 9, 13⟩⟩] 0 15 16 false (.text [])]⟩, 16⟩
      0 { new with mime := true } 9).map (fun c => ((build ct 20 c.msg).map (Option.map List.length), c.size)) = some (some (some 73), 74) := by
  decide +kernel

end Sieve.Build
