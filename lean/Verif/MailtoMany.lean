import Mathlib.Data.List.Induction
import Verif.MailtoProps

/-!
C52 for URIs with any number of recipients, before the question mark and in the fields `to`, `cc` and `bcc`.
-/

namespace Sieve.Address

/-! ### How a URI is written -/

/-- The byte `c` as it is or with a percent sign. -/
def Mark (c : UInt8) (w : List UInt8) : Prop :=
  w = [c] ∨ ∃ c1 c2 a b, HexDigit c1 a ∧ HexDigit c2 b ∧ UInt8.ofNat (16 * a + b) = c ∧ w = [37, c1, c2]

/-- `w` is a way of writing the address `a`: a nonempty local part, one at sign and a domain. -/
def WrittenAddr (x : MExt) (a w : List UInt8) : Prop :=
  ∃ u v us at_ vs, u ≠ [] ∧ a = u ++ 64 :: v ∧ w = us ++ (at_ ++ vs) ∧ x.utf8 a = true ∧ Mark 64 at_ ∧
    Written addrPlain (fun c => c ≠ 44 ∧ c ≠ 64) u us ∧ Written addrPlain (fun c => c ≠ 44 ∧ c ≠ 64) v vs

/-- Addresses separated by commas. -/
inductive WrittenList (x : MExt) : List (List UInt8) → List UInt8 → Prop
  | one {a w} : WrittenAddr x a w → WrittenList x [a] w
  | more {a w comma as ws} : WrittenAddr x a w → Mark 44 comma → WrittenList x as ws →
      WrittenList x (a :: as) (w ++ (comma ++ ws))

/-- What stands between two `&`: a field with a value or a field with addresses. -/
inductive Item where
  | value (p : Param) (v : List UInt8)
  | addrs (h : Hdr) (as : List (List UInt8))

/-- `name=value`, with a name that is one of `to`, `cc` and `bcc` exactly for addresses. -/
inductive WrittenItem (x : MExt) : Item → List UInt8 → Prop
  | value {n v w} : n ≠ [] → (∀ c ∈ n, nameByte c) → x.utf8 n = true → (∀ h, x.parse n ≠ .addr h) →
      v ≠ [] → x.utf8 v = true → Written valuePlain (fun _ => True) v w →
      WrittenItem x (.value (x.parse n) v) (n ++ 61 :: w)
  | addrs {n h as w} : n ≠ [] → (∀ c ∈ n, nameByte c) → x.utf8 n = true → x.parse n = .addr h →
      WrittenList x as w → WrittenItem x (.addrs h as) (n ++ 61 :: w)

/-- Fields separated by `&`. -/
inductive WrittenItems (x : MExt) : List Item → List UInt8 → Prop
  | one {i w} : WrittenItem x i w → WrittenItems x [i] w
  | more {i w is ws} : WrittenItem x i w → WrittenItems x is ws → WrittenItems x (i :: is) (w ++ 38 :: ws)

/-- Recipients, then a question mark and the fields; either may be left out. -/
inductive WrittenUri (x : MExt) : List (List UInt8) → List Item → List UInt8 → Prop
  | plain {as w} : WrittenList x as w → WrittenUri x as [] w
  | fields {as w is ws} : WrittenList x as w → WrittenItems x is ws → WrittenUri x as is (w ++ 63 :: ws)
  | only {is ws} : WrittenItems x is ws → WrittenUri x [] is (63 :: ws)

/-! ### What it says -/

/-- The recipients of a field. -/
def Item.recipients : Item → List (Hdr × List UInt8)
  | .value _ _ => []
  | .addrs h as => as.map (h, ·)

/-- All recipients in the order in which they are written. -/
def recipients (as : List (List UInt8)) (is : List Item) : List (Hdr × List UInt8) :=
  as.map (Hdr.to, ·) ++ is.flatMap Item.recipients

/-- Without those that were written before, in small letters or in capitals. -/
def firsts (l : List (Hdr × List UInt8)) : List (Hdr × List UInt8) :=
  (l.zipIdx.filter fun (r, i) => !(l.take i).any fun q => q.2.map byteLower == r.2.map byteLower).map (·.1)

/-- The recipients of one kind. -/
def ofKind (h : Hdr) (l : List (Hdr × List UInt8)) : List (List UInt8) :=
  ((firsts l).filter (·.1 = h)).map (·.2)

/-- The body is the last one. -/
def bodyIn (is : List Item) : Option (List UInt8) :=
  is.reverse.findSome? fun
    | .value .body v => some v
    | _ => none

/-- The header fields in order. -/
def headersIn (is : List Item) : List (List UInt8 × List UInt8) :=
  is.filterMap fun
    | .value (.other n) v => some (n, v)
    | _ => none

/-- The message the URI asks for. -/
def asks (as : List (List UInt8)) (is : List Item) : Mailto where
  to_ := ofKind .to (recipients as is)
  cc := ofKind .cc (recipients as is)
  bcc := ofKind .bcc (recipients as is)
  body := bodyIn is
  headers := headersIn is

/-- The code notices a recipient if it stands before the question mark, if another one follows in the same field, or if
it is at the end of the URI. -/
def Noticed (as : List (List UInt8)) (is : List Item) : Prop :=
  as ≠ [] ∨ (∃ h bs, Item.addrs h bs ∈ is ∧ 2 ≤ bs.length) ∨ ∃ h bs, is.getLast? = some (.addrs h bs)

/-! ### Inserting -/

/-- The message made from these recipients and these fields. -/
def made (rs : List (Hdr × List UInt8)) (is : List Item) : Mailto where
  to_ := ofKind .to rs
  cc := ofKind .cc rs
  bcc := ofKind .bcc rs
  body := bodyIn is
  headers := headersIn is

theorem firsts_snoc (l : List (Hdr × List UInt8)) (r : Hdr × List UInt8) :
    firsts (l ++ [r]) = firsts l ++ if l.any (fun q => q.2.map byteLower == r.2.map byteLower) then [] else [r] := by
  unfold firsts
  rw [List.zipIdx_append, List.filter_append, List.map_append]
  congr 1
  · congr 1
    apply List.filter_congr
    rintro ⟨q, i⟩ hq
    have hi : i ≤ l.length := by
      have := List.mem_zipIdx hq
      omega
    dsimp only
    rw [List.take_append_of_le_length hi]
  · simp only [List.zipIdx_cons, List.zipIdx_nil, List.filter_cons, List.filter_nil, Nat.zero_add]
    rw [List.take_append_of_le_length (Nat.le_refl _), List.take_length]
    cases l.any (fun q => q.2.map byteLower == r.2.map byteLower) <;> simp

theorem firsts_any (l : List (Hdr × List UInt8)) (v : List UInt8) :
    ((firsts l).any fun q => q.2.map byteLower == v) = l.any fun q => q.2.map byteLower == v := by
  induction l using List.reverseRecOn with
  | nil => rfl
  | append_singleton l r ih =>
    rw [firsts_snoc, List.any_append, List.any_append, ih]
    split
    · rename_i h
      rw [List.any_eq_true] at h
      obtain ⟨q, hq, h⟩ := h
      rw [beq_iff_eq] at h
      cases hb : (r.2.map byteLower == v)
      · simp [hb]
      · have : (l.any fun q => q.2.map byteLower == v) = true :=
          List.any_eq_true.2 ⟨q, hq, by rw [h]; exact hb⟩
        rw [this]; simp
    · rfl

theorem made_all (rs : List (Hdr × List UInt8)) (is : List Item) (v : List UInt8) :
    ((made rs is).all.any fun q => eqIgnoreCase q v) = rs.any fun q => q.2.map byteLower == v.map byteLower := by
  rw [← firsts_any]
  rw [Bool.eq_iff_iff]
  simp only [List.any_eq_true, Mailto.all, made, ofKind, List.mem_append, List.mem_map, List.mem_filter,
    decide_eq_true_eq, eqIgnoreCase]
  constructor
  · rintro ⟨q, hq | hq | hq, h⟩ <;> obtain ⟨r, ⟨hr, _⟩, rfl⟩ := hq <;> exact ⟨r, hr, h⟩
  · rintro ⟨⟨k, q⟩, hr, h⟩
    refine ⟨q, ?_, h⟩
    cases k
    · exact .inl ⟨_, ⟨hr, rfl⟩, rfl⟩
    · exact .inr (.inl ⟨_, ⟨hr, rfl⟩, rfl⟩)
    · exact .inr (.inr ⟨_, ⟨hr, rfl⟩, rfl⟩)

theorem insert_made (rs : List (Hdr × List UInt8)) (is : List Item) (h : Hdr) (v : List UInt8) :
    insertAddress (made rs is) h v = made (rs ++ [(h, v)]) is := by
  unfold insertAddress
  rw [made_all]
  simp only [made, ofKind, firsts_snoc]
  cases hb : rs.any (fun q => q.2.map byteLower == v.map byteLower)
  · cases h <;> simp
  · simp

theorem store_made (rs : List (Hdr × List UInt8)) (is : List Item) (p : Param) (v : List UInt8)
    (hp : ∀ h, p ≠ .addr h) : (made rs is).store p v = made rs (is ++ [.value p v]) := by
  cases p with
  | body => simp [Mailto.store, made, bodyIn, headersIn]
  | other n => simp [Mailto.store, made, bodyIn, headersIn]
  | addr h => exact absurd rfl (hp h)

theorem addrs_made (rs : List (Hdr × List UInt8)) (is : List Item) (h : Hdr) (as : List (List UInt8)) :
    made rs (is ++ [.addrs h as]) = made rs is := by
  simp [made, bodyIn, headersIn]

/-! ### Reading -/

theorem run_at (x : MExt) (m : Mailto) (h : Hdr) (buf : List UInt8) (g : Bool) (rest : List UInt8) {w : List UInt8}
    (hb : buf ≠ []) (hw : Mark 64 w) :
    MS.run x ⟨m, .address h false, buf, g⟩ (w ++ rest) = MS.run x ⟨m, .address h true, buf ++ [64], g⟩ rest := by
  rcases hw with rfl | ⟨c1, c2, a, b, h1, h2, h3, rfl⟩
  · rw [List.singleton_append, run_plain x _ 64 _ (by decide)]
    simp [MS.plain, hb]
  · simp only [List.cons_append, List.nil_append]
    rw [run_percent x _ c1 c2 a b _ h1 h2, h3]
    simp [MS.decoded]

theorem run_comma (x : MExt) (m : Mailto) (h : Hdr) (buf : List UInt8) (g : Bool) (rest : List UInt8) {w : List UInt8}
    (hb : x.utf8 buf = true) (hw : Mark 44 w) :
    MS.run x ⟨m, .address h true, buf, g⟩ (w ++ rest)
      = MS.run x ⟨insertAddress m h buf, .address h false, [], true⟩ rest := by
  rcases hw with rfl | ⟨c1, c2, a, b, h1, h2, h3, rfl⟩
  · rw [List.singleton_append, run_plain x _ 44 _ (by decide)]
    simp [MS.plain, MS.flushAddr, hb]
  · simp only [List.cons_append, List.nil_append]
    rw [run_percent x _ c1 c2 a b _ h1 h2, h3]
    simp [MS.decoded, MS.flushAddr, hb]

theorem run_one (x : MExt) (m : Mailto) (h : Hdr) (g : Bool) (rest : List UInt8) {a w : List UInt8}
    (hw : WrittenAddr x a w) :
    MS.run x ⟨m, .address h false, [], g⟩ (w ++ rest) = MS.run x ⟨m, .address h true, a, g⟩ rest := by
  obtain ⟨u, v, us, at_, vs, hu, rfl, rfl, _, h1, h2, h3⟩ := hw
  simp only [List.append_assoc]
  rw [run_addr x h false _ h2, List.nil_append, run_at x m h u g _ hu h1, run_addr x h true _ h3]
  simp

theorem WrittenAddr.ok {x : MExt} {a w : List UInt8} (hw : WrittenAddr x a w) : a ≠ [] ∧ x.utf8 a = true := by
  obtain ⟨u, v, us, at_, vs, hu, rfl, rfl, h, _⟩ := hw
  exact ⟨by simp, h⟩

/-- All addresses but the last are stored. -/
theorem run_list (x : MExt) (h : Hdr) (rest : List UInt8) (is : List Item) {as : List (List UInt8)} {w : List UInt8}
    (hw : WrittenList x as w) : ∃ init last, as = init ++ [last] ∧ last ≠ [] ∧ x.utf8 last = true ∧
      ∀ rs g, MS.run x ⟨made rs is, .address h false, [], g⟩ (w ++ rest)
        = MS.run x ⟨made (rs ++ init.map (h, ·)) is, .address h true, last, g || !init.isEmpty⟩ rest := by
  induction hw with
  | @one a w ha =>
    refine ⟨[], a, rfl, ha.ok.1, ha.ok.2, fun rs g => ?_⟩
    rw [run_one x _ h g rest ha]; simp
  | @more a w comma as ws ha hc _ ih =>
    obtain ⟨init, last, rfl, h1, h2, h3⟩ := ih
    refine ⟨a :: init, last, rfl, h1, h2, fun rs g => ?_⟩
    simp only [List.append_assoc]
    rw [run_one x _ h g _ ha, run_comma x _ h a g _ ha.ok.2 hc, insert_made, h3]
    simp

theorem run_name_equals (x : MExt) (m : Mailto) (n : List UInt8) (g : Bool) (rest : List UInt8) (hn : n ≠ [])
    (hb : ∀ c ∈ n, nameByte c) (hu : x.utf8 n = true) :
    MS.run x ⟨m, .paramName, [], g⟩ (n ++ 61 :: rest)
      = MS.run x ⟨m, match x.parse n with
          | .addr h => .address h false
          | p => .paramValue p, [], g⟩ rest := by
  rw [run_name x _ n hb, List.nil_append, run_plain x _ 61 _ (by decide)]
  simp only [MS.plain, hu]
  cases x.parse n <;> simp [hn]

/-- The field lists two addresses or more. -/
def Item.two : Item → Bool
  | .addrs _ as => decide (2 ≤ as.length)
  | .value _ _ => false

def Item.isAddrs : Item → Bool
  | .addrs _ _ => true
  | .value _ _ => false

/-- A field at the end. -/
theorem run_item_end (x : MExt) (rs : List (Hdr × List UInt8)) (is : List Item) (g : Bool) {i : Item} {w : List UInt8}
    (hw : WrittenItem x i w) :
    (MS.run x ⟨made rs is, .paramName, [], g⟩ w).bind (·.finish x)
      = if g || i.isAddrs then some (made (rs ++ i.recipients) (is ++ [i])) else none := by
  cases hw with
  | @value n v w h1 h2 h3 h4 h5 h6 h7 =>
    rw [run_name_equals x _ n g w h1 h2 h3]
    have : (match x.parse n with
          | .addr h => .address h false
          | p => .paramValue p) = MState.paramValue (x.parse n) := by
      split
      · rename_i h heq; exact absurd heq (h4 h)
      · rfl
    rw [this]
    have := run_value x (x.parse n) [] h7 (made rs is) [] g
    rw [List.append_nil] at this
    rw [this]
    cases g <;> simp [MS.run, MS.finish, h5, h6, store_made _ _ _ _ h4, Item.recipients, Item.isAddrs]
  | @addrs n h as w h1 h2 h3 h4 h5 =>
    rw [run_name_equals x _ n g w h1 h2 h3, h4]
    obtain ⟨init, last, rfl, h6, h7, h8⟩ := run_list x h [] is h5
    have := h8 rs g
    rw [List.append_nil] at this
    dsimp only
    rw [this]
    simp [MS.run, MS.finish, h6, h7, insert_made, addrs_made, Item.recipients, Item.isAddrs]

/-- A field followed by another one. -/
theorem run_item_amp (x : MExt) (rs : List (Hdr × List UInt8)) (is : List Item) (g : Bool) (rest : List UInt8) {i : Item}
    {w : List UInt8} (hw : WrittenItem x i w) :
    MS.run x ⟨made rs is, .paramName, [], g⟩ (w ++ 38 :: rest)
      = MS.run x ⟨made (rs ++ i.recipients) (is ++ [i]), .paramName, [], g || i.two⟩ rest := by
  cases hw with
  | @value n v w h1 h2 h3 h4 h5 h6 h7 =>
    rw [List.append_assoc, List.cons_append, run_name_equals x _ n g _ h1 h2 h3]
    have : (match x.parse n with
          | .addr h => .address h false
          | p => .paramValue p) = MState.paramValue (x.parse n) := by
      split
      · rename_i h heq; exact absurd heq (h4 h)
      · rfl
    rw [this, run_value x _ _ h7, List.nil_append, run_plain x _ 38 _ (by decide)]
    simp [MS.plain, h5, h6, store_made _ _ _ _ h4, Item.recipients, Item.two]
  | @addrs n h as w h1 h2 h3 h4 h5 =>
    rw [List.append_assoc, List.cons_append, run_name_equals x _ n g _ h1 h2 h3, h4]
    obtain ⟨init, last, rfl, h6, h7, h8⟩ := run_list x h (38 :: rest) is h5
    dsimp only
    rw [h8, run_plain x _ 38 _ (by decide)]
    have : (!init.isEmpty) = decide (1 ≤ init.length) := by cases init <;> simp
    simp [MS.plain, MS.flushAddr, h6, h7, insert_made, addrs_made, Item.recipients, Item.two, this]

theorem run_items (x : MExt) {js : List Item} {w : List UInt8} (hw : WrittenItems x js w) :
    ∀ (rs : List (Hdr × List UInt8)) (is : List Item) (g : Bool),
      (MS.run x ⟨made rs is, .paramName, [], g⟩ w).bind (·.finish x)
        = if g || js.any Item.two || js.getLast?.any Item.isAddrs
          then some (made (rs ++ js.flatMap Item.recipients) (is ++ js)) else none := by
  induction hw with
  | @one i w hi =>
    intro rs is g
    rw [run_item_end x rs is g hi]
    cases i with
    | value p v => simp [Item.two, Item.isAddrs]
    | addrs h as => simp [Item.isAddrs]
  | @more i w js ws hi hj ih =>
    intro rs is g
    rw [run_item_amp x rs is g ws hi, ih]
    have : js ≠ [] := by cases hj <;> simp
    obtain ⟨j, js', rfl⟩ := List.exists_cons_of_ne_nil this
    simp [List.getLast?_cons_cons, Bool.or_assoc]

theorem items_noticed (js : List Item) :
    (js.any Item.two || js.getLast?.any Item.isAddrs) = true ↔ Noticed [] js := by
  simp only [Noticed, ne_eq, not_true_eq_false, false_or, Bool.or_eq_true, List.any_eq_true, Option.any_eq_true]
  refine or_congr ⟨?_, ?_⟩ ⟨?_, ?_⟩
  · rintro ⟨i, hi, h⟩
    cases i with
    | value => cases h
    | addrs h' bs => exact ⟨h', bs, hi, of_decide_eq_true h⟩
  · rintro ⟨h', bs, hi, h⟩
    exact ⟨_, hi, decide_eq_true h⟩
  · rintro ⟨i, hi, h⟩
    cases i with
    | value => cases h
    | addrs h' bs => exact ⟨h', bs, hi⟩
  · rintro ⟨h', bs, hi⟩
    exact ⟨_, hi, rfl⟩

open Classical in
/-- What is made of any URI: the message it asks for, unless it has recipients only where the code does not notice
them, or none. -/
theorem mailto_read (x : MExt) {as : List (List UInt8)} {is : List Item} {uri : List UInt8}
    (hw : WrittenUri x as is uri) :
    parseMailto x uri = if Noticed as is then some (asks as is) else none := by
  unfold parseMailto
  have h0 : ({} : MS) = ⟨made [] [], .address .to false, [], false⟩ := rfl
  rw [h0]
  cases hw with
  | @plain as w h =>
    obtain ⟨init, last, rfl, h6, h7, h8⟩ := run_list x .to [] [] h
    have := h8 [] false
    rw [List.append_nil] at this
    rw [this, if_pos (.inl (by simp))]
    have hm : asks (init ++ [last]) [] = made (init.map (Hdr.to, ·) ++ [(.to, last)]) [] := by
      simp [asks, made, recipients]
    simp [MS.run, MS.finish, h6, h7, insert_made, hm]
  | @fields as w is ws h h' =>
    obtain ⟨init, last, rfl, h6, h7, h8⟩ := run_list x .to (63 :: ws) [] h
    rw [h8, run_plain x _ 63 _ (by decide), if_pos (.inl (by simp))]
    have : MS.plain x ⟨made ([] ++ init.map (Hdr.to, ·)) [], .address .to true, last, false || !init.isEmpty⟩ 63
        = some ⟨made (init.map (Hdr.to, ·) ++ [(.to, last)]) [], .paramName, [], true⟩ := by
      simp [MS.plain, MS.flushAddr, h6, h7, insert_made]
    rw [this, Option.bind_some, run_items x h']
    simp [asks, made, recipients]
  | @only is ws h' =>
    rw [run_plain x _ 63 _ (by decide)]
    have : MS.plain x ⟨made [] [], .address .to false, [], false⟩ 63
        = some ⟨made [] [], .paramName, [], false⟩ := by
      simp [MS.plain]
    rw [this, Option.bind_some, run_items x h', Bool.false_or]
    by_cases hn : Noticed [] is
    · rw [if_pos ((items_noticed is).2 hn), if_pos hn]
      simp [asks, made, recipients]
    · rw [if_neg (fun h => hn ((items_noticed is).1 h)), if_neg hn]

/-- **C52**: a URI with any recipients before the question mark and any fields, each byte written as it is or with a
percent sign as the writer likes, is read as what was written: the recipients of each kind in order, the first time they
are named; the header fields in order; and the last body.

The full claim would also be about URIs with recipients only in the fields; these are rejected unless `Noticed` holds
(`mailto_read`, `mailto_to_field_rejected`). -/
theorem mailto_read_partial (x : MExt) {as : List (List UInt8)} {is : List Item} {uri : List UInt8}
    (hw : WrittenUri x as is uri) (has : as ≠ []) : parseMailto x uri = some (asks as is) := by
  rw [mailto_read x hw, if_pos (.inl has)]

/-- The recipients of all kinds together are those written, none of them twice. -/
theorem asks_recipients (as : List (List UInt8)) (is : List Item) :
    (∀ r ∈ recipients as is, ∃ q ∈ (asks as is).all, q.map byteLower = r.2.map byteLower) ∧
    (∀ q ∈ (asks as is).all, ∃ h, (h, q) ∈ recipients as is) := by
  have hsub : ∀ l : List (Hdr × List UInt8), ∀ r ∈ firsts l, r ∈ l := by
    intro l r hr
    simp only [firsts, List.mem_map, List.mem_filter] at hr
    obtain ⟨⟨q, i⟩, ⟨hq, _⟩, rfl⟩ := hr
    exact List.fst_mem_of_mem_zipIdx hq
  constructor
  · intro r hr
    have h1 : ((made (recipients as is) is).all.any fun q => eqIgnoreCase q r.2) = true := by
      rw [made_all]
      exact List.any_eq_true.2 ⟨r, hr, by simp⟩
    obtain ⟨q, hq, h⟩ := List.any_eq_true.1 h1
    exact ⟨q, hq, by simpa [eqIgnoreCase] using h⟩
  · intro q hq
    simp only [Mailto.all, asks, ofKind, List.mem_append, List.mem_map, List.mem_filter] at hq
    rcases hq with hq | hq | hq <;> obtain ⟨⟨k, r⟩, ⟨hr, _⟩, rfl⟩ := hq <;> exact ⟨k, hsub _ _ hr⟩

/-- `a@b%2Cc@d?t=A@B&s=x`: two recipients before the question mark, one of them again in the field. -/
example : WrittenUri demoMExt [[97, 64, 98], [99, 64, 100]] [.addrs .to [[65, 64, 66]], .value (.other [115]) [120]]
    [97, 64, 98, 37, 50, 67, 99, 64, 100, 63, 116, 61, 65, 64, 66, 38, 115, 61, 120] := by
  have ad (u v : UInt8) (hu : addrPlain u) (hv : addrPlain v) : WrittenAddr demoMExt [u, 64, v] [u, 64, v] :=
    ⟨[u], [v], [u], [64], [v], by simp, rfl, rfl, rfl, .inl rfl, .same hu .nil, .same hv .nil⟩
  have nb (c : UInt8) (h : nameByte c) : ∀ d ∈ [c], nameByte d := by simpa using h
  exact .fields
    (.more (ad 97 98 ⟨by decide, by decide⟩ ⟨by decide, by decide⟩)
      (.inr ⟨50, 67, 2, 12, .inl rfl, .inr rfl, by decide, rfl⟩)
      (.one (ad 99 100 ⟨by decide, by decide⟩ ⟨by decide, by decide⟩)))
    (.more (.addrs (n := [116]) (by decide) (nb _ (by unfold nameByte; decide)) rfl rfl
        (.one (ad 65 66 ⟨by decide, by decide⟩ ⟨by decide, by decide⟩)))
      (.one (.value (x := demoMExt) (n := [115]) (by decide) (nb _ (by unfold nameByte; decide)) rfl
        (by intro h hc; cases hc) (by decide) rfl (.same ⟨by decide, by decide⟩ .nil))))

example : asks [[97, 64, 98], [99, 64, 100]] [.addrs .to [[65, 64, 66]], .value (.other [115]) [120]]
    = { to_ := [[97, 64, 98], [99, 64, 100]], headers := [([115], [120])] } := by decide +kernel

end Sieve.Address
