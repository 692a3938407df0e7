import Verif.AddressProps

/-!
C52: a mailto URI is read as it was written.
-/

namespace Sieve.Address

/-- `c` is the hexadecimal digit for `n`. -/
def HexDigit (c : UInt8) (n : Nat) : Prop :=
  ([48, 49, 50, 51, 52, 53, 54, 55, 56, 57, 97, 98, 99, 100, 101, 102] : List UInt8)[n]? = some c ∨
  ([48, 49, 50, 51, 52, 53, 54, 55, 56, 57, 65, 66, 67, 68, 69, 70] : List UInt8)[n]? = some c

/-- `us` is a way of writing the bytes `cs` in a URI: bytes for which `plain` holds can be written as they are, and
every byte for which `pct` holds can be written with a percent sign and two hexadecimal digits. -/
inductive Written (plain pct : UInt8 → Prop) : List UInt8 → List UInt8 → Prop
  | nil : Written plain pct [] []
  | same {c cs us} : plain c → Written plain pct cs us → Written plain pct (c :: cs) (c :: us)
  | percent {c1 c2 a b cs us} : HexDigit c1 a → HexDigit c2 b → pct (UInt8.ofNat (16 * a + b)) →
      Written plain pct cs us → Written plain pct (UInt8.ofNat (16 * a + b) :: cs) (37 :: c1 :: c2 :: us)

/-- Bytes of an address other than the at sign that need no percent sign. -/
def addrPlain (c : UInt8) : Prop := c ∉ ([37, 44, 63, 64, 61, 38] : List UInt8) ∧ byteSpace c = false

/-- Bytes of a value that need no percent sign. -/
def valuePlain (c : UInt8) : Prop := c ∉ ([37, 38] : List UInt8) ∧ byteSpace c = false

/-- Letters, digits, `-` and `_`. -/
def nameByte (c : UInt8) : Prop :=
  (48 ≤ c ∧ c ≤ 57) ∨ (65 ≤ c ∧ c ≤ 90) ∨ (97 ≤ c ∧ c ≤ 122) ∨ c = 45 ∨ c = 95

theorem hexVal_of {c : UInt8} {n : Nat} (h : HexDigit c n) : n < 16 ∧ hexVal c = some (UInt8.ofNat n) := by
  have hn : n < 16 := by
    rcases h with h | h <;> exact (List.getElem?_eq_some_iff.1 h).1
  refine ⟨hn, ?_⟩
  have k1 : ∀ n : Fin 16,
      hexVal (([48, 49, 50, 51, 52, 53, 54, 55, 56, 57, 97, 98, 99, 100, 101, 102] : List UInt8)[n]) = some (UInt8.ofNat n) ∧
      hexVal (([48, 49, 50, 51, 52, 53, 54, 55, 56, 57, 65, 66, 67, 68, 69, 70] : List UInt8)[n]) = some (UInt8.ofNat n) := by
    decide
  have := k1 ⟨n, hn⟩
  rcases h with h | h
  · obtain ⟨_, rfl⟩ := List.getElem?_eq_some_iff.1 h
    exact this.1
  · obtain ⟨_, rfl⟩ := List.getElem?_eq_some_iff.1 h
    exact this.2

theorem hexValue (a b : Nat) (ha : a < 16) (hb : b < 16) :
    UInt8.ofNat a * 16 + UInt8.ofNat b = UInt8.ofNat (16 * a + b) := by
  apply UInt8.toNat.inj
  simp [UInt8.toNat_add, UInt8.toNat_mul]
  omega

theorem run_plain (x : MExt) (s : MS) (c : UInt8) (l : List UInt8) (h : c ≠ 37) :
    s.run x (c :: l) = (s.plain x c).bind (·.run x l) := by
  match l with
  | [] =>
    rw [MS.run, if_neg h]
    cases s.plain x c <;> simp [MS.run]
  | [d] => rw [MS.run, if_neg h]
  | d :: e :: l => rw [MS.run, if_neg h]

theorem run_percent (x : MExt) (s : MS) (c1 c2 : UInt8) (a b : Nat) (l : List UInt8) (h1 : HexDigit c1 a)
    (h2 : HexDigit c2 b) :
    s.run x (37 :: c1 :: c2 :: l) = (s.decoded x (UInt8.ofNat (16 * a + b))).bind (·.run x l) := by
  rw [MS.run, if_pos rfl, (hexVal_of h1).2, (hexVal_of h2).2]
  simp only [hexValue a b (hexVal_of h1).1 (hexVal_of h2).1]

theorem run_addr (x : MExt) (h : Hdr) (b : Bool) (rest : List UInt8) {cs us : List UInt8}
    (w : Written addrPlain (fun c => c ≠ 44 ∧ c ≠ 64) cs us) :
    ∀ (m : Mailto) (buf : List UInt8) (g : Bool),
      MS.run x ⟨m, .address h b, buf, g⟩ (us ++ rest) = MS.run x ⟨m, .address h b, buf ++ cs, g⟩ rest := by
  induction w with
  | nil => intro m buf g; simp
  | @same c cs us hp _ ih =>
    intro m buf g
    simp only [addrPlain, List.mem_cons, List.not_mem_nil, or_false, not_or] at hp
    obtain ⟨⟨h1, h2, h3, h4, h5, h6⟩, h7⟩ := hp
    rw [List.cons_append, run_plain x _ c _ h1]
    have : MS.plain x ⟨m, .address h b, buf, g⟩ c = some ⟨m, .address h b, buf ++ [c], g⟩ := by
      simp [MS.plain, h2, h3, h4, h5, h6, h7]
    rw [this, Option.bind_some, ih]; simp
  | @percent c1 c2 a e cs us k1 k2 hp _ ih =>
    intro m buf g
    simp only [List.cons_append]
    rw [run_percent x _ c1 c2 a e _ k1 k2]
    have : MS.decoded x ⟨m, .address h b, buf, g⟩ (UInt8.ofNat (16 * a + e))
        = some ⟨m, .address h b, buf ++ [UInt8.ofNat (16 * a + e)], g⟩ := by
      simp only [MS.decoded, hp.1, hp.2, if_false]
    rw [this, Option.bind_some, ih]; simp

theorem run_value (x : MExt) (p : Param) (rest : List UInt8) {cs us : List UInt8}
    (w : Written valuePlain (fun _ => True) cs us) :
    ∀ (m : Mailto) (buf : List UInt8) (g : Bool),
      MS.run x ⟨m, .paramValue p, buf, g⟩ (us ++ rest) = MS.run x ⟨m, .paramValue p, buf ++ cs, g⟩ rest := by
  induction w with
  | nil => intro m buf g; simp
  | @same c cs us hp _ ih =>
    intro m buf g
    simp only [valuePlain, List.mem_cons, List.not_mem_nil, or_false, not_or] at hp
    obtain ⟨⟨h1, h2⟩, h7⟩ := hp
    rw [List.cons_append, run_plain x _ c _ h1]
    have : MS.plain x ⟨m, .paramValue p, buf, g⟩ c = some ⟨m, .paramValue p, buf ++ [c], g⟩ := by
      unfold MS.plain
      simp only [h2, h7, if_false]
      split_ifs <;> simp_all
    rw [this, Option.bind_some, ih]; simp
  | @percent c1 c2 a e cs us k1 k2 hp _ ih =>
    intro m buf g
    simp only [List.cons_append]
    rw [run_percent x _ c1 c2 a e _ k1 k2]
    have : MS.decoded x ⟨m, .paramValue p, buf, g⟩ (UInt8.ofNat (16 * a + e))
        = some ⟨m, .paramValue p, buf ++ [UInt8.ofNat (16 * a + e)], g⟩ := rfl
    rw [this, Option.bind_some, ih]; simp

theorem nameByte_not {c : UInt8} (h : nameByte c) :
    c ≠ 37 ∧ c ≠ 44 ∧ c ≠ 63 ∧ c ≠ 64 ∧ c ≠ 61 ∧ c ≠ 38 := by
  unfold nameByte at h
  refine ⟨?_, ?_, ?_, ?_, ?_, ?_⟩ <;> rintro rfl <;> revert h <;> decide

theorem run_name (x : MExt) (rest : List UInt8) : ∀ (n : List UInt8), (∀ c ∈ n, nameByte c) →
    ∀ (m : Mailto) (buf : List UInt8) (g : Bool),
      MS.run x ⟨m, .paramName, buf, g⟩ (n ++ rest) = MS.run x ⟨m, .paramName, buf ++ n, g⟩ rest
  | [], _, m, buf, g => by simp
  | c :: n, h, m, buf, g => by
    have hc := h c (by simp)
    obtain ⟨h1, h2, h3, h4, h5, h6⟩ := nameByte_not hc
    rw [List.cons_append, run_plain x _ c _ h1]
    have : MS.plain x ⟨m, .paramName, buf, g⟩ c = some ⟨m, .paramName, buf ++ [c], g⟩ := by
      unfold MS.plain
      simp only [h2, h3, h4, h5, h6, if_false]
      unfold nameByte at hc
      rw [if_pos hc]
    rw [this, Option.bind_some, run_name x rest n (fun d hd => h d (by simp [hd]))]; simp

/-- A field of the URI: its name, its value and the way the value is written. -/
structure Field where
  name : List UInt8
  value : List UInt8
  written : List UInt8

/-- The field is a header (not an address list) or the body, written correctly and not empty. -/
structure Field.Ok (x : MExt) (f : Field) : Prop where
  name : f.name ≠ [] ∧ (∀ c ∈ f.name, nameByte c) ∧ x.utf8 f.name = true
  kind : x.parse f.name = .body ∨ ∃ h, x.parse f.name = .other h
  value : f.value ≠ [] ∧ x.utf8 f.value = true
  written : Written valuePlain (fun _ => True) f.value f.written

/-- `name=value` -/
def Field.source (f : Field) : List UInt8 := f.name ++ 61 :: f.written

/-- The fields separated by `&`. -/
def sources : List Field → List UInt8
  | [] => []
  | [f] => f.source
  | f :: fs => f.source ++ 38 :: sources fs

/-- The body is the last field with that name. -/
def bodyOf (x : MExt) (fs : List Field) : Option (List UInt8) :=
  (fs.reverse.find? fun f => x.parse f.name = .body).map (·.value)

/-- All other fields in order. -/
def headersOf (x : MExt) (fs : List Field) : List (List UInt8 × List UInt8) :=
  fs.filterMap fun f => match x.parse f.name with
    | .other h => some (h, f.value)
    | _ => none

theorem run_equals (x : MExt) (m : Mailto) (n : List UInt8) (g : Bool) (rest : List UInt8) (hn : n ≠ [])
    (hu : x.utf8 n = true) (hk : x.parse n = .body ∨ ∃ h, x.parse n = .other h) :
    MS.run x ⟨m, .paramName, n, g⟩ (61 :: rest) = MS.run x ⟨m, .paramValue (x.parse n), [], g⟩ rest := by
  rw [run_plain x _ 61 _ (by decide)]
  have : MS.plain x ⟨m, .paramName, n, g⟩ 61 = some ⟨m, .paramValue (x.parse n), [], g⟩ := by
    rcases hk with hk | ⟨h, hk⟩ <;> simp [MS.plain, hn, hu, hk]
  rw [this, Option.bind_some]

def storeAll (x : MExt) : Mailto → List Field → Mailto
  | m, [] => m
  | m, f :: fs => storeAll x (m.store (x.parse f.name) f.value) fs

theorem run_fields (x : MExt) : ∀ (fs : List Field) (m : Mailto), fs ≠ [] → (∀ f ∈ fs, f.Ok x) →
    ((MS.run x ⟨m, .paramName, [], true⟩ (sources fs)).bind (·.finish x)) = some (storeAll x m fs)
  | [], m, h, _ => absurd rfl h
  | [f], m, _, h => by
    obtain ⟨⟨h1, h2, h3⟩, h4, ⟨h5, h6⟩, h7⟩ := h f (by simp)
    simp only [sources, Field.source]
    rw [run_name x _ f.name h2, List.nil_append, run_equals x m f.name true _ h1 h3 h4]
    have := run_value x (x.parse f.name) [] h7 m [] true
    rw [List.append_nil] at this
    rw [this]
    simp [MS.run, MS.finish, h5, h6, storeAll]
  | f :: f' :: fs, m, _, h => by
    obtain ⟨⟨h1, h2, h3⟩, h4, ⟨h5, h6⟩, h7⟩ := h f (by simp)
    simp only [sources, Field.source, List.append_assoc, List.cons_append]
    rw [run_name x _ f.name h2, List.nil_append, run_equals x m f.name true _ h1 h3 h4, run_value x _ _ h7,
      List.nil_append, run_plain x _ 38 _ (by decide)]
    have : MS.plain x ⟨m, .paramValue (x.parse f.name), f.value, true⟩ 38
        = some ⟨m.store (x.parse f.name) f.value, .paramName, [], true⟩ := by
      simp [MS.plain, h5, h6]
    rw [this, Option.bind_some]
    exact run_fields x (f' :: fs) _ (by simp) (fun g hg => h g (by simp at hg ⊢; tauto))

theorem storeAll_spec (x : MExt) : ∀ (fs : List Field) (m : Mailto), (∀ f ∈ fs, f.Ok x) →
    storeAll x m fs = { m with body := (bodyOf x fs).or m.body, headers := m.headers ++ headersOf x fs }
  | [], m, _ => by simp [storeAll, bodyOf, headersOf]
  | f :: fs, m, h => by
    rw [storeAll, storeAll_spec x fs _ (fun g hg => h g (by simp [hg]))]
    rcases (h f (by simp)).kind with hk | ⟨n, hk⟩
    · simp only [Mailto.store, hk, bodyOf, headersOf, List.reverse_cons, List.find?_append, List.filterMap_cons]
      cases h2 : fs.reverse.find? fun f => x.parse f.name = .body <;> simp [hk]
    · simp only [Mailto.store, hk, bodyOf, headersOf, List.reverse_cons, List.find?_append, List.filterMap_cons]
      cases h2 : fs.reverse.find? fun f => x.parse f.name = .body <;> simp [hk]

/-- **C52**: a URI with one recipient `u@v` and any fields, each byte written as it is or with a percent sign as the
writer likes, is read as that recipient, these headers and that body. -/
theorem mailto_round_trip (x : MExt) (u v us vs : List UInt8) (fs : List Field)
    (hu : u ≠ []) (hw : Written addrPlain (fun c => c ≠ 44 ∧ c ≠ 64) u us)
    (hv : Written addrPlain (fun c => c ≠ 44 ∧ c ≠ 64) v vs)
    (ha : x.utf8 (u ++ 64 :: v) = true) (hf : ∀ f ∈ fs, f.Ok x) :
    parseMailto x (us ++ 64 :: (vs ++ if fs = [] then [] else 63 :: sources fs))
      = some { to_ := [u ++ 64 :: v], body := bodyOf x fs, headers := headersOf x fs } := by
  unfold parseMailto
  have h1 : MS.plain x ⟨{}, .address .to false, u, false⟩ 64 = some ⟨{}, .address .to true, u ++ [64], false⟩ := by
    simp [MS.plain, hu]
  have hr := run_addr x .to false (64 :: (vs ++ if fs = [] then [] else 63 :: sources fs)) hw {} [] false
  rw [show (({} : MS)) = ⟨{}, .address .to false, [], false⟩ from rfl, hr, List.nil_append,
    run_plain x _ 64 _ (by decide), h1, Option.bind_some, run_addr x .to true _ hv]
  have ha' : x.utf8 (u ++ [64] ++ v) = true := by simpa using ha
  by_cases hfs : fs = []
  · subst hfs
    simp [MS.run, MS.finish, ha, insertAddress, Mailto.all, bodyOf, headersOf]
  · rw [if_neg hfs, run_plain x _ 63 _ (by decide)]
    have h2 : MS.plain x ⟨{}, .address .to true, u ++ [64] ++ v, false⟩ 63
        = some ⟨{ to_ := [u ++ 64 :: v] }, .paramName, [], true⟩ := by
      simp [MS.plain, MS.flushAddr, ha, insertAddress, Mailto.all]
    rw [h2, Option.bind_some, run_fields x fs _ hfs hf, storeAll_spec x fs _ hf]
    simp

/-- `a%2Bb@c?s=x%26` with the header `s`: the recipient is `a+b@c` and the value `x&`. -/
example : parseMailto demoMExt [97, 37, 50, 66, 98, 64, 99, 63, 115, 61, 120, 37, 50, 54]
    = some { to_ := [[97, 43, 98, 64, 99]], headers := [([115], [120, 38])] } := by decide

example : Written addrPlain (fun c => c ≠ 44 ∧ c ≠ 64) [97, 43, 98] [97, 37, 50, 66, 98] :=
  .same ⟨by decide, by decide⟩ (.percent (a := 2) (b := 11) (.inl rfl) (.inr rfl) ⟨by decide, by decide⟩
    (.same ⟨by decide, by decide⟩ .nil))

example : Field.Ok demoMExt ⟨[115], [120, 38], [120, 37, 50, 54]⟩ where
  name := ⟨by decide, by intro c hc; simp at hc; subst hc; unfold nameByte; decide, by decide⟩
  kind := .inr ⟨[115], by decide⟩
  value := ⟨by decide, by decide⟩
  written := .same ⟨by decide, by decide⟩ (.percent (a := 2) (b := 6) (.inl rfl) (.inl rfl) trivial .nil)

end Sieve.Address
