import Verif.VacationLemmas

/-!
# C41: when a vacation reply is prepared, and what it looks like

The conditions are stated on the envelope, the script's arguments and the header fields of the message, without
the loops of the model.
-/

namespace Sieve.Vacation
open Sieve.Expr (Val)
open Sieve.Tests (Ext Field Parsed Str AddressValue)

variable {F : Type}

/-! ## Specification -/

/-- The characters are the same but for the case of an ASCII letter. -/
def CharEq (c d : Char) : Prop :=
  c = d ∨ (65 ≤ c.toNat ∧ c.toNat ≤ 90 ∧ d.toNat = c.toNat + 32)
    ∨ (65 ≤ d.toNat ∧ d.toNat ≤ 90 ∧ c.toNat = d.toNat + 32)

/-- The strings are the same but for the case of ASCII letters. -/
def CaseEq (a b : Str) : Prop := List.Forall₂ CharEq a b

/-- `v` is the sender: the last non-empty `from` of the envelope. -/
def Sender (x : Ext F) (c : Ctx F) (v : Str) : Prop :=
  ∃ before val after, c.envelope = before ++ (.from, val) :: after ∧ Tests.isEmpty val = false
    ∧ (∀ e ∈ after, e.1 = .from → Tests.isEmpty e.2 = true) ∧ v = Tests.text x.flt val

/-- An address of the user: where the message was sent to, listed in the script, or configured. -/
def UserAddress (x : Ext F) (c : Ctx F) (a : Args) (u : Str) : Prop :=
  (∃ e ∈ c.envelope, e.1 = (if c.useOrig then Env.orcpt else Env.to) ∧ Tests.isEmpty e.2 = false
      ∧ u = Tests.text x.flt e.2)
    ∨ (u ∈ a.addresses ∧ u ≠ []) ∨ (u = c.user ∧ u ≠ [])

/-- The address of a mail system or of a mailing list. -/
def Automatic (v : Str) : Prop :=
  (∃ p r, v = p ++ r ∧ CaseEq p "mailer-daemon".toList) ∨ (∃ p r, v = p ++ r ∧ CaseEq p "owner-".toList)
    ∨ ∃ p m r, v = p ++ m ++ r ∧ CaseEq m "-request@".toList

def listFields : List Hd :=
  [.listArchive, .listHelp, .listId, .listOwner, .listPost, .listSubscribe, .listUnsubscribe]

def rcptFields : List Hd := [.to, .cc, .bcc, .resentTo, .resentCc, .resentBcc]

/-- The comma separated words of `v` include `k`, in any case. -/
def Lists (x : Ext F) (v k : Str) : Prop :=
  ∃ w, Word w v ∧ ∃ a m b, w = a ++ m ++ b ∧ (∀ c ∈ a, x.ws c = true) ∧ (∀ c ∈ b, x.ws c = true) ∧ CaseEq m k

/-- A field of that name. -/
def Called (n : Hd) (name : String) : Prop := ∃ s, n = .other s ∧ CaseEq s name.toList

/-- The conditions for a reply to `v`. -/
structure MayReply (x : Ext F) (c : Ctx F) (a : Args) (v : Str) : Prop where
  limit : c.numOut < c.maxOut
  sender : Sender x c v
  some : v ≠ []
  notOwn : ∀ u, UserAddress x c a u → ¬ CaseEq u v
  notAutomatic : ¬ Automatic v
  notList : ∀ h ∈ c.headers, h.1 ∉ listFields
  autoSubmitted : ∀ h ∈ c.headers, Called h.1 "Auto-Submitted" →
    ∃ t, h.2.parsed = .text t ∧ CaseEq t "no".toList
  suppress : ∀ h ∈ c.headers, Called h.1 "X-Auto-Response-Suppress" →
    ∀ t, h.2.parsed = .text t → ¬ Lists x t "all".toList ∧ ¬ Lists x t "oof".toList
  precedence : ∀ h ∈ c.headers, Called h.1 "Precedence" → ∀ t, h.2.parsed = .text t → ¬ CaseEq t "bulk".toList
  rcpt : ∃ h ∈ c.headers, h.1 ∈ rcptFields ∧ ∃ t, AddressValue x .all h.2 t ∧
    ∃ u, UserAddress x c a u ∧ CaseEq u t
  received : (c.headers.filter fun h => h.1 = .received).length ≤ c.maxReceived

/-- What the host is asked. -/
def question (c : Ctx F) (a : Args) (v : Str) : Query :=
  ⟨"_v".toList ++ lower v ++ (match a.handle with
      | some h => h
      | none => a.reason),
    (match a.period with
      | .days n => n * 86400
      | .seconds n => n
      | .default => c.expiry), false⟩

/-! ## The model meets it -/

theorem same_iff (a b : Str) : same a b = true ↔ CaseEq a b := by
  unfold same CaseEq
  rw [beq_iff_eq, lower_eq]
  have : (fun c d => lowerChar c = lowerChar d) = CharEq := by
    funext c d
    exact propext (lowerChar_eq c d)
  rw [this]

theorem caseEq_lower (a b : Str) : CaseEq a b ↔ lower a = lower b := by
  rw [← same_iff, same, beq_iff_eq]

theorem caseEq_lower_right (a b : Str) (hb : lower b = b) : CaseEq a b ↔ lower a = b := by
  rw [caseEq_lower, hb]

theorem prefix_iff (k v : Str) (hk : lower k = k) :
    k.isPrefixOf (lower v) = true ↔ ∃ p r, v = p ++ r ∧ CaseEq p k := by
  rw [List.isPrefixOf_iff_prefix]
  constructor
  · rintro ⟨r, h⟩
    obtain ⟨p, q, rfl, h1, h2⟩ := List.map_eq_append_iff.mp h.symm
    exact ⟨p, q, rfl, (caseEq_lower_right _ _ hk).mpr h1⟩
  · rintro ⟨p, r, rfl, h⟩
    rw [lower_append, (caseEq_lower_right _ _ hk).mp h]
    exact List.prefix_append _ _

theorem infix_iff (k v : Str) (hk : lower k = k) :
    Tests.infixOf k (lower v) = true ↔ ∃ p m r, v = p ++ m ++ r ∧ CaseEq m k := by
  rw [Tests.infixOf_iff]
  constructor
  · rintro ⟨a, r, h⟩
    obtain ⟨p, q, rfl, h1, h2⟩ := List.map_eq_append_iff.mp h.symm
    obtain ⟨p1, p2, rfl, h3, h4⟩ := List.map_eq_append_iff.mp h1
    exact ⟨p1, p2, q, rfl, (caseEq_lower_right _ _ hk).mpr h4⟩
  · rintro ⟨p, m, r, rfl, h⟩
    rw [lower_append, lower_append, (caseEq_lower_right _ _ hk).mp h]
    exact List.infix_append _ _ _

theorem lowerChar_comma (c : Char) : lowerChar c = ',' ↔ c = ',' := by
  constructor
  · intro h
    refine char_ext ?_
    have h := congrArg Char.toNat h
    rw [lowerChar_toNat] at h
    have : (',' : Char).toNat = 44 := rfl
    split at h <;> omega
  · rintro rfl
    decide

theorem mem_lower_comma (s : Str) : ',' ∈ lower s ↔ ',' ∈ s := by
  simp [lower, lowerChar_comma]

theorem word_lower (w v : Str) : Word w (lower v) ↔ ∃ w', w = lower w' ∧ Word w' v := by
  constructor
  · rintro ⟨a, b, h, h1, h2, h3⟩
    obtain ⟨p, q, rfl, h4, h5⟩ := List.map_eq_append_iff.mp h
    obtain ⟨p1, p2, rfl, h6, h7⟩ := List.map_eq_append_iff.mp h4
    subst h7; subst h6; subst h5
    refine ⟨p2, rfl, p1, q, rfl, fun k => h1 ((mem_lower_comma _).mpr k), ?_, ?_⟩
    · rcases h2 with h2 | ⟨a', h2⟩
      · exact .inl (by simpa using h2)
      · obtain ⟨r, s, rfl, _, hs⟩ := List.map_eq_append_iff.mp h2
        obtain ⟨c, rfl, hc⟩ : ∃ c, s = [c] ∧ lowerChar c = ',' := by
          cases s with
          | nil => simp at hs
          | cons c cs => simp at hs; exact ⟨c, by simp [hs.2], hs.1⟩
        exact .inr ⟨r, by rw [(lowerChar_comma c).mp hc]⟩
    · rcases h3 with h3 | ⟨b', h3⟩
      · exact .inl (by simpa using h3)
      · cases q with
        | nil => simp at h3
        | cons c cs =>
          simp at h3
          exact .inr ⟨cs, by rw [(lowerChar_comma c).mp h3.1]⟩
  · rintro ⟨w', rfl, a, b, rfl, h1, h2, h3⟩
    refine ⟨lower a, lower b, by simp [lower_append], fun k => h1 ((mem_lower_comma _).mp k), ?_, ?_⟩
    · rcases h2 with rfl | ⟨a', rfl⟩
      · exact .inl rfl
      · exact .inr ⟨lower a', by rw [lower_append]; rfl⟩
    · rcases h3 with rfl | ⟨b', rfl⟩
      · exact .inl rfl
      · exact .inr ⟨lower b', rfl⟩

/-- ASCII letters are not white space (true of `char::is_whitespace`). -/
def Letters (x : Ext F) : Prop :=
  ∀ c : Char, (65 ≤ c.toNat ∧ c.toNat ≤ 90) ∨ (97 ≤ c.toNat ∧ c.toNat ≤ 122) → x.ws c = false

theorem ws_lower {x : Ext F} (hx : Letters x) (c : Char) : x.ws (lowerChar c) = x.ws c := by
  by_cases h : 65 ≤ c.toNat ∧ c.toNat ≤ 90
  · rw [hx c (.inl h), hx (lowerChar c) (.inr ?_)]
    rw [lowerChar_toNat, if_pos h]
    omega
  · have : lowerChar c = c := char_ext (by rw [lowerChar_toNat, if_neg h])
    rw [this]

theorem trim_lower {x : Ext F} (hx : Letters x) (w k : Str) (hk : k ≠ []) (hl : lower k = k)
    (hw : ∀ c ∈ k, 97 ≤ c.toNat ∧ c.toNat ≤ 122) :
    trim x (lower w) = k ↔
      ∃ a m b, w = a ++ m ++ b ∧ (∀ c ∈ a, x.ws c = true) ∧ (∀ c ∈ b, x.ws c = true) ∧ CaseEq m k := by
  rw [trim_eq x _ k hk fun c hc => hx c (.inr (hw c hc))]
  constructor
  · rintro ⟨a, b, h, h1, h2⟩
    obtain ⟨p, q, rfl, h4, h5⟩ := List.map_eq_append_iff.mp h
    obtain ⟨p1, p2, rfl, h6, h7⟩ := List.map_eq_append_iff.mp h4
    subst h6; subst h5
    refine ⟨p1, p2, q, rfl, fun c hc => ?_, fun c hc => ?_, (caseEq_lower_right _ _ hl).mpr h7⟩
    · rw [← ws_lower hx]; exact h1 _ (List.mem_map_of_mem hc)
    · rw [← ws_lower hx]; exact h2 _ (List.mem_map_of_mem hc)
  · rintro ⟨a, m, b, rfl, h1, h2, h3⟩
    refine ⟨lower a, lower b, ?_, fun c hc => ?_, fun c hc => ?_⟩
    · rw [lower_append, lower_append, (caseEq_lower_right _ _ hl).mp h3]
    · obtain ⟨d, hd, rfl⟩ := List.mem_map.mp hc
      rw [ws_lower hx]; exact h1 d hd
    · obtain ⟨d, hd, rfl⟩ := List.mem_map.mp hc
      rw [ws_lower hx]; exact h2 d hd

theorem suppress_iff {x : Ext F} (hx : Letters x) (v : Str) :
    ((splitComma (lower v)).any fun w => ["all".toList, "oof".toList].contains (trim x w)) = true ↔
      Lists x v "all".toList ∨ Lists x v "oof".toList := by
  have h1 := fun w => trim_lower hx w "all".toList (by decide) (by decide) (by decide)
  have h2 := fun w => trim_lower hx w "oof".toList (by decide) (by decide) (by decide)
  rw [List.any_eq_true]
  constructor
  · rintro ⟨w, hw, hk⟩
    rw [mem_splitComma w _ _ le_rfl, word_lower] at hw
    obtain ⟨w', rfl, hw⟩ := hw
    rw [List.contains_iff_mem] at hk
    rcases List.mem_cons.mp hk with hk | hk
    · exact .inl ⟨w', hw, (h1 w').mp hk⟩
    · exact .inr ⟨w', hw, (h2 w').mp (List.mem_singleton.mp hk)⟩
  · rintro (⟨w, hw, hk⟩ | ⟨w, hw, hk⟩)
    · refine ⟨lower w, (mem_splitComma _ _ _ le_rfl).mpr ((word_lower _ _).mpr ⟨w, rfl, hw⟩), ?_⟩
      rw [List.contains_iff_mem, (h1 w).mpr hk]
      exact List.mem_cons_self
    · refine ⟨lower w, (mem_splitComma _ _ _ le_rfl).mpr ((word_lower _ _).mpr ⟨w, rfl, hw⟩), ?_⟩
      rw [List.contains_iff_mem, (h2 w).mpr hk]
      exact List.mem_cons_of_mem _ List.mem_cons_self

theorem asText_iff (p : Parsed) (t : Str) : asText p = some t ↔ p = .text t := by
  cases p <;> simp [asText]

theorem isList_iff (n : Hd) : isList n = true ↔ n ∈ listFields := by
  cases n <;> simp [isList, listFields]

theorem isRcpt_iff (n : Hd) : isRcpt n = true ↔ n ∈ rcptFields := by
  cases n <;> simp [isRcpt, rcptFields]

theorem called_iff (s : Str) (name : String) : Called (.other s) name ↔ same s name.toList = true := by
  rw [same_iff]
  constructor
  · rintro ⟨t, h, h1⟩
    injection h with h
    rw [h]; exact h1
  · intro h
    exact ⟨s, rfl, h⟩

theorem fine_iff {x : Ext F} (hx : Letters x) (n : Hd) (f : Field) : fine x n f = true ↔
    n ∉ listFields ∧ (Called n "Auto-Submitted" → ∃ t, f.parsed = .text t ∧ CaseEq t "no".toList)
      ∧ (Called n "X-Auto-Response-Suppress" →
        ∀ t, f.parsed = .text t → ¬ Lists x t "all".toList ∧ ¬ Lists x t "oof".toList)
      ∧ (Called n "Precedence" → ∀ t, f.parsed = .text t → ¬ CaseEq t "bulk".toList) := by
  have excl : ∀ (s : Str) (a b : String), lower a.toList ≠ lower b.toList → same s a.toList = true →
      ¬ same s b.toList = true := by
    intro s a b h h1 h2
    rw [same, beq_iff_eq] at h1 h2
    exact h (h1.symm.trans h2)
  have hl : ∀ n : Hd, (∀ s, n ≠ .other s) → ∀ name, ¬ Called n name := by
    rintro n h name ⟨s, h1, _⟩
    exact h s h1
  by_cases hn : ∃ s, n = .other s
  · obtain ⟨s, rfl⟩ := hn
    have h0 : Hd.other s ∉ listFields := by simp [listFields]
    simp only [fine, called_iff, h0, not_false_eq_true, true_and]
    by_cases h1 : same s "Auto-Submitted".toList = true
    · have h2 := excl s "Auto-Submitted" "X-Auto-Response-Suppress" (by decide) h1
      have h3 := excl s "Auto-Submitted" "Precedence" (by decide) h1
      rw [if_pos h1]
      simp only [h1, h2, h3, Bool.false_eq_true, true_imp_iff, false_imp_iff, and_true, true_and]
      cases h4 : asText f.parsed with
      | none =>
        simp only [Bool.false_eq_true, false_iff]
        rintro ⟨t, h5, _⟩
        rw [(asText_iff _ _).mpr h5] at h4
        cases h4
      | some v =>
        simp only
        rw [same_iff]
        have h4 := (asText_iff _ _).mp h4
        constructor
        · exact fun h => ⟨v, h4, h⟩
        · rintro ⟨t, h5, h6⟩
          rw [h4] at h5
          injection h5 with h5
          rw [h5]; exact h6
    · rw [if_neg h1]
      simp only [h1, Bool.false_eq_true, false_imp_iff, true_and]
      by_cases h2 : same s "X-Auto-Response-Suppress".toList = true
      · have h3 := excl s "X-Auto-Response-Suppress" "Precedence" (by decide) h2
        rw [if_pos h2]
        simp only [h2, h3, Bool.false_eq_true, true_imp_iff, false_imp_iff, and_true, true_and]
        cases h4 : asText f.parsed with
        | none =>
          simp only [true_iff]
          intro t h5
          rw [(asText_iff _ _).mpr h5] at h4
          cases h4
        | some v =>
          have h4 := (asText_iff _ _).mp h4
          have := suppress_iff hx v
          simp only [Bool.not_eq_true', ← Bool.not_eq_true]
          rw [this, not_or]
          constructor
          · intro h t h5
            rw [h4] at h5
            injection h5 with h5
            rw [← h5]; exact h
          · exact fun h => h v h4
      · rw [if_neg h2]
        simp only [h2, Bool.false_eq_true, false_imp_iff, true_and]
        by_cases h3 : same s "Precedence".toList = true
        · rw [if_pos h3]
          simp only [h3, true_imp_iff]
          cases h4 : asText f.parsed with
          | none =>
            simp only [true_iff]
            intro t h5
            rw [(asText_iff _ _).mpr h5] at h4
            cases h4
          | some v =>
            have h4 := (asText_iff _ _).mp h4
            simp only [Bool.not_eq_true', ← Bool.not_eq_true]
            rw [same_iff]
            constructor
            · intro h t h5
              rw [h4] at h5
              injection h5 with h5
              rw [← h5]; exact h
            · exact fun h => h v h4
        · rw [if_neg h3]
          simp only [h3, Bool.false_eq_true, false_imp_iff]
  · have hc := hl n fun s e => hn ⟨s, e⟩
    simp only [hc, false_imp_iff, and_true]
    have : fine x n f = !isList n := by
      cases n with
      | other s => exact absurd ⟨s, rfl⟩ hn
      | _ => rfl
    rw [this, Bool.not_eq_true', ← Bool.not_eq_true, isList_iff]

/-- **C41 (1).** The host is asked whether a reply was sent already exactly if all conditions are met; otherwise
the test fails at once. -/
theorem test_vacation {x : Ext F} (hx : Letters x) (c : Ctx F) (a : Args) (q : Query) (isNot : Bool) :
    test x c a = some (q, isNot) ↔ ∃ v, MayReply x c a v ∧ q = question c a v ∧ isNot = true := by
  -- the user's addresses
  generalize hU : (scanEnvelope x c.useOrig c.envelope ([], [])).2 ++ (a.addresses.filter fun t => !t.isEmpty)
    ++ (if !c.user.isEmpty then [c.user] else []) = users
  have hu : ∀ u, u ∈ users ↔ UserAddress x c a u := by
    intro u
    rw [← hU, List.mem_append, List.mem_append, scanEnvelope_users, or_assoc]
    unfold UserAddress
    refine or_congr ?_ (or_congr ?_ ?_)
    · simp only [List.not_mem_nil, false_or]
      constructor
      · rintro ⟨e, h1, h2, h3, h4⟩; exact ⟨e, h1, h3, h2, h4.symm⟩
      · rintro ⟨e, h1, h2, h3, h4⟩; exact ⟨e, h1, h3, h2, h4.symm⟩
    · simp
    · cases h : c.user with
      | nil => simp
      | cons d ds => simp; rintro rfl; simp
  have hany : ∀ v, (users.any fun u => same u v) = true ↔ ∃ u, UserAddress x c a u ∧ CaseEq u v := by
    intro v
    simp only [List.any_eq_true, hu, same_iff]
  have hnames : ∀ h : Hd × Field, names x users h.1 h.2 = true ↔ h.1 ∈ rcptFields ∧
      ∃ t, AddressValue x .all h.2 t ∧ ∃ u, UserAddress x c a u ∧ CaseEq u t := by
    intro h
    unfold names
    rw [Bool.and_eq_true, isRcpt_iff, List.any_eq_true]
    simp only [hany, Tests.addressValues_iff]
  -- the sender
  have hsend : ∀ v, Sender x c v → (scanEnvelope x c.useOrig c.envelope ([], [])).1 = lower v := by
    rintro v ⟨p, val, r, h1, h2, h3, rfl⟩
    rw [h1]
    exact scanEnvelope_last x c.useOrig p r val _ h2 h3
  have hsend' : (scanEnvelope x c.useOrig c.envelope ([], [])).1 ≠ [] →
      ∃ v, Sender x c v ∧ v ≠ [] := by
    intro h
    rcases last_sender c.envelope with h1 | ⟨p, v, r, h1, h2, h3⟩
    · exact absurd (scanEnvelope_none x c.useOrig _ _ h1) h
    · have hs : Sender x c (Tests.text x.flt v) := ⟨p, v, r, h1, h2, h3, rfl⟩
      refine ⟨_, hs, ?_⟩
      intro e
      rw [hsend _ hs, e] at h
      exact h rfl
  have hauto : ∀ v, Automatic v ↔ ("mailer-daemon".toList.isPrefixOf (lower v) = true
      ∨ "owner-".toList.isPrefixOf (lower v) = true) ∨ Tests.infixOf "-request@".toList (lower v) = true := by
    intro v
    rw [prefix_iff _ _ (by decide), prefix_iff _ _ (by decide), infix_iff _ _ (by decide), or_assoc]
    rfl
  have hcase : ∀ u v, CaseEq u (lower v) ↔ CaseEq u v := by
    intro u v
    rw [caseEq_lower, caseEq_lower, lower_lower]
  unfold test
  simp only [hU]
  by_cases hlim : c.maxOut ≤ c.numOut
  · rw [if_pos hlim]
    simp only [reduceCtorEq, false_iff]
    rintro ⟨v, h, _⟩
    have := h.limit
    omega
  · rw [if_neg hlim]
    constructor
    · intro h
      split at h
      · cases h
      · rename_i hg
        simp only [Bool.or_eq_true, List.isEmpty_iff, not_or] at hg
        obtain ⟨⟨⟨⟨⟨g1, g2⟩, g3⟩, g4⟩, g5⟩, g6⟩ := hg
        obtain ⟨v, hv, hne⟩ := hsend' g1
        have hl := hsend v hv
        rw [hl] at g3 g4 g5 g6 h
        cases hs : scanHeaders x users c.headers (false, 0) with
        | none => rw [hs] at h; cases h
        | some p =>
          obtain ⟨found, rcv⟩ := p
          rw [hs] at h
          simp only at h
          split at h
          · rename_i hfr
            injection h with h
            injection h with h1 h2
            obtain ⟨k1, k2, k3⟩ := (scanHeaders_iff x users _ _ _ _ _).mp hs
            simp only [Bool.and_eq_true, decide_eq_true_eq] at hfr
            have k1 := fun e he => (fine_iff hx e.1 e.2).mp (k1 e he)
            refine ⟨v, {
              limit := by omega
              sender := hv
              some := hne
              notOwn := fun u h1 h2 => g6 ((hany _).mpr ⟨u, h1, (hcase u v).mpr h2⟩)
              notAutomatic := by
                rw [hauto]
                rintro ((h | h) | h)
                · exact g3 h
                · exact g4 h
                · exact g5 h
              notList := fun e he => (k1 e he).1
              autoSubmitted := fun e he => (k1 e he).2.1
              suppress := fun e he => (k1 e he).2.2.1
              precedence := fun e he => (k1 e he).2.2.2
              rcpt := by
                rw [hfr.1, Bool.false_or] at k2
                obtain ⟨e, he, k⟩ := List.any_eq_true.mp k2.symm
                exact ⟨e, he, (hnames e).mp k⟩
              received := by
                rw [← List.countP_eq_length_filter]
                omega }, ?_, h2.symm⟩
            exact h1.symm
          · cases h
    · rintro ⟨v, hm, rfl, rfl⟩
      have hl := hsend v hm.sender
      rw [hl]
      obtain ⟨e, he, hr, t, ht, u, hu1, hu2⟩ := hm.rcpt
      rw [if_neg]
      · have hs : scanHeaders x users c.headers (false, 0) =
            some (true, c.headers.countP fun h => h.1 = .received) := by
          refine (scanHeaders_iff x users _ _ _ _ _).mpr ⟨fun e he => ?_, ?_, by rw [Nat.zero_add]⟩
          · exact (fine_iff hx e.1 e.2).mpr
              ⟨hm.notList e he, hm.autoSubmitted e he, hm.suppress e he, hm.precedence e he⟩
          · rw [Bool.false_or]
            exact (List.any_eq_true.mpr ⟨e, he, (hnames e).mpr ⟨hr, t, ht, u, hu1, hu2⟩⟩).symm
        rw [hs]
        simp only
        rw [if_pos]
        · rfl
        · have := hm.received
          rw [← List.countP_eq_length_filter] at this
          simpa using this
      · simp only [Bool.or_eq_true, List.isEmpty_iff, not_or]
        have ha := hm.notAutomatic
        rw [hauto, not_or, not_or] at ha
        refine ⟨⟨⟨⟨⟨?_, ?_⟩, ha.1.1⟩, ha.1.2⟩, ha.2⟩, ?_⟩
        · intro e
          exact hm.some (List.map_eq_nil_iff.mp e)
        · intro e
          have := (hu u).mpr hu1
          rw [e] at this
          cases this
        · rw [hany]
          rintro ⟨u, h1, h2⟩
          exact hm.notOwn u h1 ((hcase u v).mp h2)

/-! ## The reply -/

/-- **C41 (2).** If only one sender is given, the reply goes to the sender the conditions were checked for. -/
theorem reply_to_sender_partial (x : Ext F) (nm : Str → Parsed → Bool) (bytes : Field → Option Str) (date msgId : Str)
    (c : Ctx F) (r : Reply) (v : Str) (hs : Sender x c v)
    (hone : ∀ e ∈ c.envelope, e.1 = .from → Tests.isEmpty e.2 = false → Tests.text x.flt e.2 = v) :
    (reply x nm bytes date msgId c r).2 = v := by
  obtain ⟨p, val, q, h1, h2, _, rfl⟩ := hs
  show recipient x c.envelope = _
  rw [h1] at hone ⊢
  clear h1
  induction p with
  | nil => simp [recipient, h2]
  | cons e p ih =>
    obtain ⟨n, w⟩ := e
    rw [List.cons_append, recipient]
    by_cases hc : (!Tests.isEmpty w && decide (n = Env.from)) = true
    · rw [if_pos hc]
      simp only [Bool.and_eq_true, Bool.not_eq_true', decide_eq_true_eq] at hc
      exact hone (n, w) List.mem_cons_self hc.2 hc.1
    · rw [if_neg hc]
      exact ih fun e he => hone e (List.mem_cons_of_mem _ he)

/-- A subject of at most 256 characters is kept, one of more than 257 is cut and marked. -/
theorem subject_cut_partial (s : Str) :
    (s.length ≤ 256 → cutSubject s = s) ∧ (257 < s.length → cutSubject s = s.take 256 ++ ['…']) := by
  unfold cutSubject maxSubject
  constructor
  · intro h
    rw [List.take_of_length_le h, if_neg (by omega), List.append_nil]
  · intro h
    rw [if_pos (by omega)]

/-- A subject of 257 characters loses its last character without a mark. -/
theorem subject_loses_last (s : Str) (h : s.length = 257) :
    cutSubject s = s.dropLast ∧ cutSubject s ≠ s := by
  have : cutSubject s = s.take 256 := by
    unfold cutSubject maxSubject
    rw [if_neg (by omega), List.append_nil]
  rw [this, List.dropLast_eq_take, h]
  refine ⟨rfl, fun e => ?_⟩
  have := congrArg List.length e
  simp [h] at this

/-- The subject that results is never longer than 257 characters. -/
theorem subject_length (s : Str) : (cutSubject s).length ≤ 257 := by
  unfold cutSubject maxSubject
  rw [List.length_append, List.length_take]
  split <;> simp <;> omega

/-! ### Reading a message -/

/-- The line without the carriage return at its end. -/
def unCr (l : Str) : Str :=
  match l.getLast? with
  | some '\r' => l.dropLast
  | _ => l

def startsBlank : Str → Bool
  | c :: _ => c = ' ' || c = '\t'
  | [] => false

/-- How a message is read: header fields up to an empty line, then the body.  A line that starts with white space
continues the field. -/
def readMessage (cur : Str) : Str → List Str × Str
  | [] => (if cur.isEmpty then [] else [cur], [])
  | c :: rest =>
    if c = '\n' then
      if (unCr cur).isEmpty then ([], rest)
      else if startsBlank rest then readMessage (cur ++ [c]) rest
      else ((unCr cur) :: (readMessage [] rest).1, (readMessage [] rest).2)
    else readMessage (cur ++ [c]) rest

/-- No line break. -/
def OneLine (s : Str) : Prop := '\n' ∉ s

/-- A field of the message as it stands there: line breaks are followed by white space, but for the one at the end. -/
def RawField (s : Str) : Prop :=
  ∃ u, s = u ++ ['\r', '\n'] ∧ ∀ a b, u = a ++ '\n' :: b → startsBlank b = true

theorem read_text : ∀ (l cur rest : Str), (∀ a b, l = a ++ '\n' :: b → startsBlank (b ++ rest) = true) →
    cur ≠ [] → unCr cur ≠ [] → readMessage cur (l ++ rest) = readMessage (cur ++ l) rest
  | [], cur, rest, _, _, _ => by simp
  | c :: l, cur, rest, h, hc, hu => by
    have step : readMessage cur (c :: (l ++ rest)) = readMessage (cur ++ [c]) (l ++ rest) := by
      rw [readMessage]
      by_cases hn : c = '\n'
      · rw [if_pos hn]
        have h1 := h [] l (by rw [hn]; rfl)
        rw [if_neg (by simpa using hu), if_pos h1]
      · rw [if_neg hn]
    rw [List.cons_append, step]
    by_cases hu' : unCr (cur ++ [c]) = []
    · -- only possible for a lone carriage return
      exfalso
      unfold unCr at hu'
      rw [List.getLast?_concat] at hu'
      split at hu'
      · rw [List.dropLast_concat] at hu'
        exact hc hu'
      · simp at hu'
    · rw [read_text l (cur ++ [c]) rest (fun a b e => h (c :: a) b (by rw [e]; rfl)) (by simp) hu']
      simp

/-- One field. -/
theorem read_field (c : Char) (l rest : Str) (hc : c ≠ '\n' ∧ c ≠ '\r')
    (h : ∀ a b, l = a ++ '\n' :: b → startsBlank b = true) (hr : startsBlank rest = false) :
    readMessage [] (c :: l ++ ['\r', '\n'] ++ rest) =
      ((c :: l) :: (readMessage [] rest).1, (readMessage [] rest).2) := by
  have hu : ∀ s, unCr (c :: s) ≠ [] := by
    intro s
    unfold unCr
    split
    · rename_i hl
      cases s with
      | nil => simp at hl; exact absurd hl hc.2
      | cons d s => simp
    · simp
  have h0 : readMessage [] (c :: l ++ ['\r', '\n'] ++ rest) = readMessage [c] (l ++ ('\r' :: '\n' :: rest)) := by
    rw [List.append_assoc, List.cons_append, readMessage, if_neg hc.1]
    rfl
  rw [h0, read_text l [c] _ _ (by simp) (hu [])]
  · have h1 : readMessage ([c] ++ l) ('\r' :: '\n' :: rest) = readMessage ([c] ++ l ++ ['\r']) ('\n' :: rest) := by
      rw [readMessage, if_neg (by decide)]
    have h2 : unCr ([c] ++ l ++ ['\r']) = c :: l := by
      unfold unCr
      rw [List.getLast?_concat]
      exact List.dropLast_concat
    rw [h1, readMessage, if_pos rfl, h2, if_neg (by simp), hr, if_neg (by simp)]
  · intro a b e
    have := h a b e
    cases b with
    | nil => simp [startsBlank] at this
    | cons d b => exact this

theorem oneLine_raw {l : Str} (h : OneLine l) : ∀ a b, l = a ++ '\n' :: b → startsBlank b = true := by
  intro a b e
  exact absurd (by rw [e]; simp) h

/-- The fields of a reply. -/
def fieldsOf (date msgId frm rcpt subject : Str) (s : Found) : List Str :=
  ["From: ".toList ++ frm,
    (match s.toFull with
      | some t => "To:".toList ++ t.dropLast.dropLast
      | none => "To: ".toList ++ rcpt),
    "Subject: ".toList ++ subject]
  ++ (match s.messageId with
    | none => []
    | some m =>
      ["In-Reply-To: <".toList ++ m ++ ">".toList,
        match s.refs with
        | some rf => "References: <".toList ++ m ++ "> ".toList ++ rf.dropLast.dropLast
        | none => "References: <".toList ++ m ++ ">".toList])
  ++ ["Date: ".toList ++ date, "Message-ID: ".toList ++ msgId, "Auto-Submitted: auto-replied".toList,
    "Content-type: text/plain; charset=utf-8".toList]

theorem read_named (name : Str) (c : Char) (cs v rest : Str) (hn : name = c :: cs) (hc : c ≠ '\n' ∧ c ≠ '\r')
    (hcs : '\n' ∉ cs) (h : ∀ a b, v = a ++ '\n' :: b → startsBlank b = true) (hr : startsBlank rest = false) :
    readMessage [] (name ++ v ++ "\r\n".toList ++ rest) =
      ((name ++ v) :: (readMessage [] rest).1, (readMessage [] rest).2) := by
  subst hn
  refine read_field c (cs ++ v) rest hc ?_ hr
  intro a b e
  rcases List.append_eq_append_iff.mp e with ⟨w, rfl, h2⟩ | ⟨w, rfl, h2⟩
  · exact h w b h2
  · cases w with
    | nil => exact h [] b h2.symm
    | cons d w =>
      simp only [List.cons_append, List.cons.injEq] at h2
      rw [← h2.1] at hcs
      simp at hcs

theorem raw_dropLast {t : Str} (h : RawField t) :
    t = t.dropLast.dropLast ++ "\r\n".toList ∧ ∀ a b, t.dropLast.dropLast = a ++ '\n' :: b → startsBlank b = true := by
  obtain ⟨u, rfl, h⟩ := h
  have : (u ++ ['\r', '\n']).dropLast.dropLast = u := by
    rw [show u ++ ['\r', '\n'] = (u ++ ['\r']) ++ ['\n'] by simp, List.dropLast_concat, List.dropLast_concat]
  rw [this]
  exact ⟨rfl, h⟩

/-- The reply read again: its header fields, and the reason as its body. -/
theorem render_fields (date msgId frm rcpt subject : Str) (s : Found) (r : Reply) (hm : r.mime = false)
    (h1 : OneLine date) (h2 : OneLine msgId) (h3 : OneLine frm) (h4 : OneLine rcpt) (h5 : OneLine subject)
    (h6 : ∀ m, s.messageId = some m → OneLine m) (h7 : ∀ t, s.toFull = some t → RawField t)
    (h8 : ∀ t, s.refs = some t → RawField t) :
    readMessage [] (render date msgId frm rcpt subject s r) = (fieldsOf date msgId frm rcpt subject s, r.reason) := by
  let nl := "\r\n".toList
  -- from the end to the beginning
  let r9 := "Content-type: text/plain; charset=utf-8".toList ++ [] ++ nl ++ (nl ++ r.reason)
  let r8 := "Auto-Submitted: ".toList ++ "auto-replied".toList ++ nl ++ r9
  let r7 := "Message-ID: ".toList ++ msgId ++ nl ++ r8
  let r6 := "Date: ".toList ++ date ++ nl ++ r7
  have e0 : readMessage [] (nl ++ r.reason) = ([], r.reason) := by
    show readMessage [] ('\r' :: '\n' :: r.reason) = _
    rw [readMessage, if_neg (by decide), readMessage, if_pos rfl,
      if_pos (by decide : List.isEmpty (unCr ([] ++ ['\r'])) = true)]
  have e9 : readMessage [] r9 = (["Content-type: text/plain; charset=utf-8".toList], r.reason) := by
    rw [read_named "Content-type: text/plain; charset=utf-8".toList 'C' _ [] _ rfl (by decide) (by decide) (by simp) rfl, e0]
    simp
  have e8 : readMessage [] r8 = (["Auto-Submitted: auto-replied".toList,
      "Content-type: text/plain; charset=utf-8".toList], r.reason) := by
    rw [read_named "Auto-Submitted: ".toList 'A' _ _ _ rfl (by decide) (by decide)
      (oneLine_raw (by unfold OneLine; decide)) rfl, e9]
    rfl
  have e7 : readMessage [] r7 = (["Message-ID: ".toList ++ msgId, "Auto-Submitted: auto-replied".toList,
      "Content-type: text/plain; charset=utf-8".toList], r.reason) := by
    rw [read_named "Message-ID: ".toList 'M' _ _ _ rfl (by decide) (by decide) (oneLine_raw h2) rfl, e8]
  have e6 : readMessage [] r6 = (["Date: ".toList ++ date, "Message-ID: ".toList ++ msgId,
      "Auto-Submitted: auto-replied".toList, "Content-type: text/plain; charset=utf-8".toList], r.reason) := by
    rw [read_named "Date: ".toList 'D' _ _ _ rfl (by decide) (by decide) (oneLine_raw h1) rfl, e7]
  -- the fields that refer to the message
  obtain ⟨r5, e5, hb5, hr5⟩ : ∃ r5, readMessage [] r5 = ((match s.messageId with
      | none => []
      | some m =>
        ["In-Reply-To: <".toList ++ m ++ ">".toList,
          match s.refs with
          | some rf => "References: <".toList ++ m ++ "> ".toList ++ rf.dropLast.dropLast
          | none => "References: <".toList ++ m ++ ">".toList]) ++ ["Date: ".toList ++ date, "Message-ID: ".toList ++ msgId,
      "Auto-Submitted: auto-replied".toList, "Content-type: text/plain; charset=utf-8".toList], r.reason)
      ∧ startsBlank r5 = false ∧ r5 = (match s.messageId with
        | none => []
        | some m =>
          "In-Reply-To: <".toList ++ m ++ ">\r\n".toList ++ "References: <".toList ++ m
            ++ match s.refs with
              | some rf => "> ".toList ++ rf
              | none => ">\r\n".toList) ++ r6 := by
    cases hmi : s.messageId with
    | none => exact ⟨r6, e6, rfl, rfl⟩
    | some m =>
      have hm1 := h6 m hmi
      obtain ⟨r4, e4, hb4, hr4⟩ : ∃ r4, readMessage [] r4 = ((match s.refs with
          | some rf => "References: <".toList ++ m ++ "> ".toList ++ rf.dropLast.dropLast
          | none => "References: <".toList ++ m ++ ">".toList) :: ["Date: ".toList ++ date, "Message-ID: ".toList ++ msgId,
          "Auto-Submitted: auto-replied".toList, "Content-type: text/plain; charset=utf-8".toList], r.reason)
          ∧ startsBlank r4 = false ∧ r4 = "References: <".toList ++ m ++ (match s.refs with
              | some rf => "> ".toList ++ rf
              | none => ">\r\n".toList) ++ r6 := by
        cases hrf : s.refs with
        | none =>
          refine ⟨"References: <".toList ++ (m ++ ">".toList) ++ nl ++ r6, ?_, rfl, ?_⟩
          · rw [read_named "References: <".toList 'R' _ _ _ rfl (by decide) (by decide) (oneLine_raw ?_) rfl, e6]
            · simp
            · unfold OneLine at *
              simp [hm1]
          · simp [nl]
        | some rf =>
          obtain ⟨k1, k2⟩ := raw_dropLast (h8 rf hrf)
          refine ⟨"References: <".toList ++ (m ++ "> ".toList ++ rf.dropLast.dropLast) ++ nl ++ r6, ?_, rfl, ?_⟩
          · rw [read_named "References: <".toList 'R' _ _ _ rfl (by decide) (by decide) ?_ rfl, e6]
            · simp
            · intro a b e
              rcases List.append_eq_append_iff.mp e with ⟨w, rfl, h⟩ | ⟨w, h, h'⟩
              · exact k2 w b h
              · cases w with
                | nil => exact k2 [] b h'.symm
                | cons d w =>
                  simp only [List.cons_append, List.cons.injEq] at h'
                  exfalso
                  refine hm1 ?_
                  have : '\n' ∈ m ++ "> ".toList := by rw [h, ← h'.1]; simp
                  rcases List.mem_append.mp this with h | h
                  · exact h
                  · simp at h
          · conv_rhs => rw [k1]
            simp [nl]
      refine ⟨"In-Reply-To: <".toList ++ (m ++ ">".toList) ++ nl ++ r4, ?_, rfl, ?_⟩
      · rw [read_named "In-Reply-To: <".toList 'I' _ _ _ rfl (by decide) (by decide) (oneLine_raw ?_) hb4, e4]
        · simp
        · unfold OneLine at *
          simp [hm1]
      · rw [hr4]
        simp [nl]
  let r3 := "Subject: ".toList ++ subject ++ nl ++ r5
  have e3 : readMessage [] r3 = (("Subject: ".toList ++ subject) :: (readMessage [] r5).1, r.reason) := by
    rw [read_named "Subject: ".toList 'S' _ _ _ rfl (by decide) (by decide) (oneLine_raw h5) hb5, e5]
  obtain ⟨r2, e2, hb2, hr2⟩ : ∃ r2, readMessage [] r2 = ((match s.toFull with
      | some t => "To:".toList ++ t.dropLast.dropLast
      | none => "To: ".toList ++ rcpt) :: (readMessage [] r3).1, r.reason) ∧ startsBlank r2 = false
      ∧ r2 = (match s.toFull with
        | some t => "To:".toList ++ t
        | none => writeHeader "To: ".toList rcpt) ++ r3 := by
    cases ht : s.toFull with
    | none =>
      refine ⟨"To: ".toList ++ rcpt ++ nl ++ r3, ?_, rfl, rfl⟩
      rw [read_named "To: ".toList 'T' _ _ _ rfl (by decide) (by decide) (oneLine_raw h4) rfl, e3]
    | some t =>
      obtain ⟨k1, k2⟩ := raw_dropLast (h7 t ht)
      refine ⟨"To:".toList ++ t.dropLast.dropLast ++ nl ++ r3, ?_, rfl, ?_⟩
      · rw [read_named "To:".toList 'T' _ _ _ rfl (by decide) (by decide) k2 rfl, e3]
      · conv_rhs => rw [k1]
        simp [nl]
  have e1 : render date msgId frm rcpt subject s r = "From: ".toList ++ frm ++ nl ++ r2 := by
    rw [hr2]
    unfold render
    rw [hm, if_pos (by decide : (!false) = true), show "Content-type: text/plain; charset=utf-8\r\n\r\n".toList =
      "Content-type: text/plain; charset=utf-8".toList ++ ("\r\n".toList ++ "\r\n".toList) by decide]
    simp only [r3, hr5, r6, r7, r8, r9, nl, writeHeader, List.append_assoc, List.append_nil, List.nil_append]
    cases s.toFull <;> cases s.messageId <;> cases s.refs <;> simp only [List.append_assoc, List.nil_append]
  rw [e1, read_named "From: ".toList 'F' _ _ _ rfl (by decide) (by decide) (oneLine_raw h3) hb2, e2, e3, e5]
  rfl

theorem cut_oneLine {s : Str} (h : OneLine s) : OneLine (cutSubject s) := by
  unfold OneLine cutSubject at *
  rw [List.mem_append]
  rintro (h1 | h1)
  · exact h (List.mem_of_mem_take h1)
  · split at h1 <;> simp at h1

/-- What was collected from the headers has no line breaks that would end a field. -/
structure Clean (s : Found) : Prop where
  subject : OneLine s.subject
  messageId : ∀ m, s.messageId = some m → OneLine m
  toFull : ∀ t, s.toFull = some t → RawField t
  refs : ∀ t, s.refs = some t → RawField t

theorem scanReply_clean (nm : Str → Parsed → Bool) (bytes : Field → Option Str) (pre rcpt : Str) (hp : OneLine pre) :
    ∀ (hs : List (Hd × Field)) (s : Found), Clean s → (∀ h ∈ hs, ∀ t, h.2.parsed = .text t → OneLine t) →
      (∀ h ∈ hs, ∀ t, bytes h.2 = some t → RawField t) → Clean (scanReply nm bytes pre rcpt hs s)
  | [], s, h, _, _ => h
  | (n, f) :: hs, s, h, h1, h2 => by
    rw [scanReply]
    refine scanReply_clean nm bytes pre rcpt hp hs _ ?_ (fun e he => h1 e (List.mem_cons_of_mem _ he))
      (fun e he => h2 e (List.mem_cons_of_mem _ he))
    have k1 := h1 (n, f) List.mem_cons_self
    have k2 := h2 (n, f) List.mem_cons_self
    simp only at k1 k2
    have addr : Clean (if nm rcpt f.parsed then
          match bytes f with
          | some r => { s with toFull := some r }
          | none => s
        else s) := by
      split
      · split
        · rename_i r hr
          exact { h with toFull := fun t ht => by injection ht with ht; rw [← ht]; exact k2 r hr }
        · exact h
      · exact h
    unfold replyStep
    cases n with
    | subject =>
      simp only
      split
      · split
        · rename_i t ht
          refine { h with subject := cut_oneLine ?_ }
          have := k1 t ((asText_iff _ _).mp ht)
          unfold OneLine at *
          simp [hp, this]
        · exact h
      · exact h
    | messageId =>
      exact { h with messageId := fun m hm => k1 m ((asText_iff _ _).mp hm) }
    | references =>
      simp only
      split
      · rename_i r hr
        exact { h with refs := fun t ht => by injection ht with ht; rw [← ht]; exact k2 r hr }
      · exact h
    | «from» => exact addr
    | sender => exact addr
    | _ => exact h

/-- Name of a header field. -/
def nameOf (l : Str) : Str := l.takeWhile (· ≠ ':')

/-- **C53.** If no text that goes into the header contains a line break, the reply has exactly the fields it should
have, among them `Auto-Submitted: auto-replied`, and the reason is its body. -/
theorem reply_fields_partial (x : Ext F) (nm : Str → Parsed → Bool) (bytes : Field → Option Str) (date msgId : Str)
    (c : Ctx F) (r : Reply) (hm : r.mime = false) (h1 : OneLine date) (h2 : OneLine msgId) (h3 : OneLine c.prefix)
    (h4 : OneLine c.defaultSubject) (h5 : OneLine c.userFrom)
    (h6 : ∀ e ∈ c.envelope, OneLine (Tests.text x.flt e.2))
    (h7 : ∀ t, r.subject = some t → OneLine t) (h8 : ∀ t, r.from = some t → OneLine t)
    (h9 : ∀ h ∈ c.headers, ∀ t, h.2.parsed = .text t → OneLine t)
    (h10 : ∀ h ∈ c.headers, ∀ t, bytes h.2 = some t → RawField t) :
    ∃ fields, readMessage [] (reply x nm bytes date msgId c r).1 = (fields, r.reason)
      ∧ (fields.map nameOf = ["From", "To", "Subject", "Date", "Message-ID", "Auto-Submitted", "Content-type"].map String.toList
        ∨ fields.map nameOf = ["From", "To", "Subject", "In-Reply-To", "References", "Date", "Message-ID",
            "Auto-Submitted", "Content-type"].map String.toList)
      ∧ "Auto-Submitted: auto-replied".toList ∈ fields
      ∧ (∀ t, r.from = some t → "From: ".toList ++ t ∈ fields)
      ∧ (∀ t, r.subject = some t → t ≠ [] → "Subject: ".toList ++ t ∈ fields) := by
  have hrcpt : OneLine (recipient x c.envelope) := by
    have : ∀ es : List (Env × Val F), (∀ e ∈ es, OneLine (Tests.text x.flt e.2)) → OneLine (recipient x es) := by
      intro es
      induction es with
      | nil => intro _; simp [OneLine, recipient]
      | cons e es ih =>
        intro h
        obtain ⟨n, v⟩ := e
        rw [recipient]
        split
        · exact h (n, v) List.mem_cons_self
        · exact ih fun e he => h e (List.mem_cons_of_mem _ he)
    exact this _ h6
  have hsend : OneLine (sender x c r) := by
    unfold sender
    split
    · rename_i f hf; exact h8 f hf
    · split
      · exact h5
      · split
        · rename_i e he
          exact h6 e (List.mem_of_find?_eq_some he)
        · simp [OneLine]
  generalize hS : scanReply nm bytes c.prefix (recipient x c.envelope) c.headers
    ⟨match r.subject with
      | some t => t
      | none => [], none, none, none⟩ = s
  have hcl : Clean s := by
    rw [← hS]
    refine scanReply_clean nm bytes c.prefix _ h3 c.headers _ ⟨?_, by simp, by simp, by simp⟩ h9 h10
    cases hr : r.subject with
    | none => simp [OneLine]
    | some t => exact h7 t hr
  have hsub : ∀ t, r.subject = some t → t ≠ [] → s.subject = t := by
    have : ∀ (hs : List (Hd × Field)) (s : Found), s.subject ≠ [] →
        (scanReply nm bytes c.prefix (recipient x c.envelope) hs s).subject = s.subject := by
      intro hs
      induction hs with
      | nil => intro s _; rfl
      | cons e hs ih =>
        intro s hne
        obtain ⟨n, f⟩ := e
        have hne' : s.subject.isEmpty = false := by simpa using hne
        rw [scanReply]
        have key : ∀ s' : Found, s'.subject = s.subject →
            (scanReply nm bytes c.prefix (recipient x c.envelope) hs s').subject = s.subject := by
          intro s' h
          rw [ih s' (by rw [h]; exact hne), h]
        refine key _ ?_
        unfold replyStep
        cases n <;> simp only [hne', Bool.false_eq_true, if_false] <;> first | rfl | (split <;> rfl) | (split <;> first | rfl | (split <;> rfl))
    intro t ht hne
    rw [← hS, ht]
    exact this _ _ hne
  have hsubj : OneLine (if s.subject.isEmpty then c.defaultSubject else s.subject) := by
    split
    · exact h4
    · exact hcl.subject
  have hread := render_fields date msgId (sender x c r) (recipient x c.envelope)
    (if s.subject.isEmpty then c.defaultSubject else s.subject) s r hm h1 h2 hsend hrcpt hsubj hcl.messageId hcl.toFull hcl.refs
  have hrep : (reply x nm bytes date msgId c r).1 = render date msgId (sender x c r) (recipient x c.envelope)
      (if s.subject.isEmpty then c.defaultSubject else s.subject) s r := by
    rw [← hS]; rfl
  refine ⟨_, by rw [hrep]; exact hread, ?_, ?_, ?_, ?_⟩
  · have to1 : ∀ t : Str, nameOf ("To:".toList ++ t) = "To".toList := fun t => rfl
    unfold fieldsOf
    cases hmi : s.messageId with
    | none =>
      left
      cases s.toFull <;> rfl
    | some m =>
      right
      cases s.toFull <;> cases s.refs <;> rfl
  · simp [fieldsOf]
  · intro t ht
    have : sender x c r = t := by unfold sender; rw [ht]
    rw [this]
    simp [fieldsOf]
  · intro t ht hne
    have h := hsub t ht hne
    rw [if_neg (by rw [h]; simpa using hne), h]
    simp [fieldsOf]

/-! ## Cases -/

/-- A message from `a@x` to `U@y`, as the host sees it. -/
def exCtx (subject : Str) : Ctx Int where
  envelope := [(.from, .str "a@x".toList), (.to, .str "u@y".toList)]
  user := []
  userFrom := []
  headers := [(.received, ⟨.other, false, []⟩), (.subject, ⟨.text subject, false, []⟩),
    (.to, ⟨.addresses [⟨none, some "U@y".toList⟩], false, []⟩),
    (.other "auto-submitted".toList, ⟨.text "NO".toList, false, []⟩)]
  numOut := 0
  maxOut := 3
  useOrig := false
  maxReceived := 10
  expiry := 30
  «prefix» := "Re: ".toList
  defaultSubject := "Automated reply".toList

def exArgs : Args := ⟨[], none, "away".toList, .days 7⟩

def exReply : Reply := ⟨none, none, "away".toList, false⟩

theorem exLetters : Letters Tests.exExt := by
  intro c h
  simp only [Tests.exExt, Flags.asciiWs, Bool.or_eq_false_iff, decide_eq_false_iff_not]
  refine ⟨⟨⟨⟨?_, ?_⟩, ?_⟩, ?_⟩, ?_⟩ <;> (rintro rfl; revert h; decide)

/-- The conditions are met, and the host is asked. -/
example : test Tests.exExt (exCtx "Hi".toList) exArgs = some (⟨"_va@xaway".toList, 7 * 86400, false⟩, true) := by decide

example : ∃ v, MayReply Tests.exExt (exCtx "Hi".toList) exArgs v :=
  let ⟨v, h, _⟩ := (test_vacation exLetters _ _ _ _).mp
    (show test Tests.exExt (exCtx "Hi".toList) exArgs = some (⟨"_va@xaway".toList, 7 * 86400, false⟩, true) by decide)
  ⟨v, h⟩

/-- Without the `To` field nothing is asked. -/
example : test Tests.exExt { exCtx [] with headers := [] } exArgs = none := by decide

example : readMessage [] (reply Tests.exExt (fun _ _ => false) (fun _ => none) "D".toList "<1@h>".toList
      (exCtx "Hi".toList) exReply).1 =
    (["From: u@y", "To: a@x", "Subject: Re: Hi", "Date: D", "Message-ID: <1@h>", "Auto-Submitted: auto-replied",
      "Content-type: text/plain; charset=utf-8"].map String.toList, "away".toList) := by
  set_option maxRecDepth 20000 in decide

/-- **C53 fails.** A line break in the subject of the message answered becomes one in the header of the reply: whoever
sends the message can add fields to it. -/
theorem reply_subject_injects : "Bcc: v@w".toList ∈ (readMessage [] (reply Tests.exExt (fun _ _ => false) (fun _ => none)
    "D".toList "<1@h>".toList (exCtx "Hi\r\nBcc: v@w".toList) exReply).1).1 := by
  set_option maxRecDepth 20000 in decide

/-- **C41 (2) fails** if the envelope has two senders: the conditions are checked for the last one, the reply goes to
the first, here the user's own address. -/
theorem reply_to_other_sender : ∃ (c : Ctx Int) (v : Str), MayReply Tests.exExt c exArgs v ∧
    UserAddress Tests.exExt c exArgs
      (reply Tests.exExt (fun _ _ => false) (fun _ => none) [] [] c exReply).2 := by
  obtain ⟨v, h, _⟩ := (test_vacation exLetters
    { exCtx "Hi".toList with envelope := (.from, .str "u@y".toList) :: (exCtx []).envelope } exArgs
      ⟨"_va@xaway".toList, 7 * 86400, false⟩ true).mp (by decide)
  exact ⟨_, v, h, .inl ⟨(.to, .str "u@y".toList),
    List.mem_cons_of_mem _ (List.mem_cons_of_mem _ List.mem_cons_self), rfl, rfl, rfl⟩⟩

end Sieve.Vacation
