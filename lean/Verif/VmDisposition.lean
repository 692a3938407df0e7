import Verif.VmLemmas

/-!
# What happens to the message in the end (C09, C10, C17)
-/

namespace Sieve.Vm

variable {W V P : Type}

/-! ## Specification -/

/-- The actions that have a say in what happens to the message. -/
inductive Act where
  | keep (flags : List String)
  | discard
  | reject
  | fileInto (copy : Bool)
  | redirect (copy : Bool)
deriving DecidableEq, Repr

/-- What happens to the message at the end: it is kept with some flags, or discarded. -/
inductive Disp where
  | keep (flags : List String)
  | discard
deriving DecidableEq, Repr

/-- The rules.  `keep` keeps with its flags; `discard` discards; `reject` cancels; a `fileinto`
without `:copy` cancels everything but a keep with flags; a `redirect` without `:copy` cancels a
keep. -/
def judge : Option Disp → Act → Option Disp
  | _, .keep fl => some (.keep fl)
  | _, .discard => some .discard
  | _, .reject => none
  | d, .fileInto true => d
  | some (.keep (f :: fs)), .fileInto false => some (.keep (f :: fs))
  | _, .fileInto false => none
  | d, .redirect true => d
  | some (.keep _), .redirect false => none
  | d, .redirect false => d

/-- The disposition after a sequence of actions; at the beginning it is the implicit keep. -/
def verdict (l : List Act) : Option Disp := l.foldl judge (some (.keep []))

/-- The action taken in a pass, if any.  A redirect only counts if it is carried out: its address is
usable, no limit has been reached, and it is not the user's own address. -/
def actOf (cfg : Cfg W V P) (c : Ctx W V P) : Option Act :=
  if c.numInstr < cfg.cpuLimit then
    match fetch c with
    | some (.keep fl) => some (.keep (fl c.view))
    | some .discard => some .discard
    | some (.reject _) => some .reject
    | some (.fileInto copy _ _) => some (.fileInto copy)
    | some (.redirect list copy addr) =>
      match addr c.view with
      | none => none
      | some a =>
        if c.numRedirects < cfg.maxRedirects ∧ c.numOut < cfg.maxOut
            ∧ cfg.received c.world < cfg.maxReceived ∧ (list = true ∨ cfg.own c.world a = false)
        then some (.redirect copy) else none
    | _ => none
  else none

/-- The actions of a session, in order. -/
def acts (cfg : Cfg W V P) (h : List (Label W V P)) : List Act :=
  (passes h).filterMap (actOf cfg)

/-- The final dispositions the host has been told about. -/
def dispositions (l : List (Event P)) : List (Event P) :=
  l.filter fun | .keep _ _ => true | .discard => true | _ => false

/-- The events that carry out a disposition: exactly one `Keep` with the given flags (or, if there
are none, with the flags set globally), exactly one `Discard`, or nothing. -/
def CarriesOut (cfg : Cfg W V P) (d : Option Disp) (l : List (Event P)) : Prop :=
  match d with
  | none => l = []
  | some .discard => l = [.discard]
  | some (.keep fl) =>
    ∃ fl' id, l = [.keep fl' id] ∧ (fl ≠ [] → fl' = fl) ∧ (fl = [] → ∃ w, fl' = cfg.globalFlags w)

/-- The position an instruction may jump to. -/
def target : Instr W V P → Option Nat
  | .jz t => some t
  | .jnz t => some t
  | .jmp t => some t
  | .forEveryPart t => some t
  | .while _ t => some t
  | _ => none

/-- All jumps of a script stay inside the script (or go to its end). -/
def InRange (s : Script W V P) : Prop :=
  ∀ i ∈ s.instrs, ∀ t, target i = some t → t ≤ s.instrs.length

/-- The scripts the host hands over in a session. -/
def scriptsOf (h : List (Label W V P)) : List (Script W V P) :=
  h.filterMap fun | .input (.script _ s) => some s | _ => none

/-- The interpreter does not reject the script for its number of variables. -/
def Accepted (s : Script W V P) : Prop := s.numMatchVars ≤ 63 ∧ s.numVars ≤ 256

/-- The host follows the protocol: it starts with an acceptable script, and later hands over a
script only in reply to an `IncludeScript` event. -/
inductive Protocol : List (Label W V P) → Prop where
  | first (n : Name) {s : Script W V P} (h : Accepted s) : Protocol [.input (.script n s)]
  | other {h l} : Protocol h → (∀ n s, l ≠ .input (.script n s)) → Protocol (h ++ [l])
  | incl {h n o m s} : Protocol (h ++ [.output (.event (.includeScript n o))]) →
      Protocol (h ++ [.output (.event (.includeScript n o)), .input (.script m s)])

/-! ## Invariants -/

/-- `final_event` is the disposition `d`. -/
def FinalIs : Option (Event P) → Option Disp → Prop
  | none, none => True
  | some .discard, some .discard => True
  | some (.keep fl _), some (.keep fl') => fl = fl'
  | _, _ => False

/-- Positions of all active scripts are within their scripts, whose jumps are in range. -/
def okStack : Nat → List (Frame W V P) → Prop
  | _, [] => True
  | pos, fr :: rest =>
    pos ≤ fr.script.instrs.length ∧ InRange fr.script ∧ okStack fr.prevPos rest

/-- Events that are neither a disposition nor a request for a script. -/
def quiet : Event P → Prop
  | .keep _ _ => False
  | .discard => False
  | .includeScript _ _ => False
  | _ => True

def notInclude : Event P → Prop
  | .includeScript _ _ => False
  | _ => True

/-- A script is active. -/
structure Active (cfg : Cfg W V P) (d : Option Disp) (c : Ctx W V P) : Prop where
  stack : c.stack ≠ []
  ok : okStack c.pos c.stack
  cache : ∀ x ∈ c.cache, InRange x.2
  final : FinalIs c.final d
  queue : ∀ e ∈ c.queue, quiet e

/-- All scripts have ended; `told` are the dispositions already reported. -/
structure Over (cfg : Cfg W V P) (d : Option Disp) (told : List (Event P)) (c : Ctx W V P) :
    Prop where
  stack : c.stack = []
  final : c.final = none
  queue : ∀ e ∈ c.queue, notInclude e
  carried : CarriesOut cfg d (told ++ dispositions c.queue)

theorem finalIs_none {e : Option (Event P)} (h : FinalIs e none) : e = none := by
  unfold FinalIs at h; split at h <;> simp_all

theorem finalIs_discard {e : Option (Event P)} (h : FinalIs e (some .discard)) :
    e = some .discard := by
  unfold FinalIs at h; split at h <;> simp_all

theorem finalIs_keep {e : Option (Event P)} {fl} (h : FinalIs e (some (.keep fl))) :
    ∃ id, e = some (.keep fl id) := by
  unfold FinalIs at h; split at h <;> simp_all

theorem dispositions_append (a b : List (Event P)) :
    dispositions (a ++ b) = dispositions a ++ dispositions b := by simp [dispositions]

theorem dispositions_quiet {q : List (Event P)} (h : ∀ e ∈ q, quiet e) : dispositions q = [] := by
  unfold dispositions
  rw [List.filter_eq_nil_iff]
  intro e he
  have := h e he
  cases e <;> simp_all [quiet]

theorem notInclude_of_quiet {e : Event P} (h : quiet e) : notInclude e := by
  cases e <;> simp_all [quiet, notInclude]

theorem build_quiet (cfg : Cfg W V P) (c : Ctx W V P) :
    ∀ e ∈ (buildMessageId cfg c).1, quiet e := by
  unfold buildMessageId
  split <;> simp [quiet]

theorem build_short (cfg : Cfg W V P) (c : Ctx W V P) :
    (buildMessageId cfg c).1 = [] ∨ ∃ e, (buildMessageId cfg c).1 = [e] := by
  unfold buildMessageId
  split <;> simp

/-- The events of `settle` carry out the disposition. -/
theorem settle_carries {cfg : Cfg W V P} {c : Ctx W V P} {d} (h : FinalIs c.final d) :
    CarriesOut cfg d (dispositions (settle cfg c).1)
      ∧ (∀ e ∈ (settle cfg c).1, notInclude e)
      ∧ (d ≠ none → (settle cfg c).1 ≠ []) ∧ (d = none → (settle cfg c).1 = [])
      ∧ (settle cfg c).1.length ≤ 2 := by
  have hkf : ∀ (w : W) (fl : List String), (fl ≠ [] → keepFlags cfg w fl = fl) ∧
      (fl = [] → ∃ w', keepFlags cfg w fl = cfg.globalFlags w') := by
    intro w fl
    constructor
    · intro hne
      unfold keepFlags
      cases fl with
      | nil => exact absurd rfl hne
      | cons a b => simp
    · rintro rfl
      refine ⟨w, ?_⟩
      unfold keepFlags
      cases hg : cfg.globalFlags w <;> simp
  match d with
  | none =>
    have := finalIs_none h
    unfold settle
    rw [this]
    simp [CarriesOut, dispositions]
  | some .discard =>
    have := finalIs_discard h
    unfold settle
    rw [this]
    simp [CarriesOut, dispositions, notInclude]
  | some (.keep fl) =>
    obtain ⟨id, hid⟩ := finalIs_keep h
    unfold settle
    rw [hid]
    simp only
    rcases build_short cfg { c with final := none } with hb | ⟨e, hb⟩
    · rw [hb]
      refine ⟨⟨_, id, rfl, hkf c.world fl⟩, by simp [notInclude], by simp, by simp, by simp⟩
    · have hq := build_quiet cfg { c with final := none } e (by rw [hb]; simp)
      rw [hb]
      refine ⟨⟨keepFlags cfg c.world fl, (buildMessageId cfg { c with final := none }).2.mainId,
        ?_, hkf c.world fl⟩, ?_, by simp, by simp, by simp⟩
      · cases e <;> simp_all [dispositions, quiet]
      · intro e' he'
        simp only [List.cons_append, List.nil_append, List.mem_cons, List.not_mem_nil,
          or_false] at he'
        rcases he' with rfl | rfl
        · exact notInclude_of_quiet hq
        · trivial

/-- The events in what `run` returned. -/
def evs : Out P → List (Event P)
  | .event e => [e]
  | _ => []

theorem finish_over {cfg : Cfg W V P} {c c' : Ctx W V P} {d o} (hf : FinalIs c.final d)
    (hs : c.stack = []) (hq : ∀ e ∈ c.queue, quiet e) (h : finish cfg c = .ret o c') :
    Over cfg d (dispositions (evs o)) c' ∧ (∀ n p, o ≠ .event (.includeScript n p))
      ∧ (o = .none → dispositions c'.queue = []) := by
  obtain ⟨h1, h2, h3, h4, h5⟩ := settle_carries (cfg := cfg) hf
  obtain ⟨s1, s2, s3, _⟩ := settle_spec cfg c
  unfold finish at h
  split at h
  · rename_i c1 he
    rw [he] at h1 h2 s1 s2 s3
    injection h with ho hc; subst ho; subst hc
    refine ⟨⟨by rw [s1.1, hs], s2, ?_, ?_⟩, by simp, fun _ => by rw [s3]; exact dispositions_quiet hq⟩
    · rw [s3]; exact fun e h => notInclude_of_quiet (hq e h)
    · rw [s3, dispositions_quiet hq]; simpa [evs] using h1
  · rename_i e c1 he
    rw [he] at h1 h2 s1 s2 s3
    injection h with ho hc; subst ho; subst hc
    refine ⟨⟨by rw [s1.1, hs], s2, ?_, ?_⟩, ?_, by simp⟩
    · rw [s3]; exact fun e h => notInclude_of_quiet (hq e h)
    · rw [s3, dispositions_quiet hq]; simpa [evs] using h1
    · intro n p ho
      injection ho with ho
      exact h2 (.includeScript n p) (by simp [ho])
  · rename_i e es c1 _ he
    rw [he] at h1 h2 s1 s2 s3
    injection h with ho hc; subst ho; subst hc
    refine ⟨⟨s1.1.trans hs, s2, ?_, ?_⟩, ?_, by simp⟩
    · exact fun e h => h2 e (by simp [h])
    · rw [show dispositions (evs (.event e)) ++ dispositions es = dispositions (e :: es) from
        (dispositions_append [e] es).symm]
      exact h1
    · intro n p ho
      injection ho with ho
      exact h2 (.includeScript n p) (by simp [ho])

theorem finishLoop_over {cfg : Cfg W V P} {c : Ctx W V P} {d} (hf : FinalIs c.final d)
    (hq : ∀ e ∈ c.queue, quiet e) : Over cfg d [] (finishLoop cfg c) := by
  obtain ⟨h1, h2, h3, h4, h5⟩ := settle_carries (cfg := cfg) (c := { c with stack := [] }) hf
  obtain ⟨s1, s2, s3, _⟩ := settle_spec cfg { c with stack := [] }
  unfold finishLoop
  split
  · rename_i c1 he
    rw [he] at h1 h2 s1 s2 s3
    refine ⟨s1.1, s2, ?_, ?_⟩
    · rw [s3]; exact fun e h => notInclude_of_quiet (hq e h)
    · rw [s3, dispositions_quiet hq]; exact h1
  · rename_i e c1 _ he
    rw [he] at h1 h2 s1 s2 s3
    exact ⟨s1.1, s2, h2, by simpa using h1⟩

/-- The disposition after a pass in state `c`. -/
def next (cfg : Cfg W V P) (c : Ctx W V P) (d : Option Disp) : Option Disp :=
  match actOf cfg c with
  | none => d
  | some a => judge d a

/-- What a pass in an active state leads to. -/
def After (cfg : Cfg W V P) (d : Option Disp) : Step W V P → Prop
  | .cont c' => Active cfg d c'
  | .ret o c' =>
    (Active cfg d c' ∧ (∃ e, o = .event e ∧ (quiet e ∨ ∃ n p, e = .includeScript n p)))
    ∨ (Over cfg d (dispositions (evs o)) c' ∧ (∀ n p, o ≠ .event (.includeScript n p))
      ∧ (o = .none → dispositions c'.queue = []))

theorem after_drain {cfg : Cfg W V P} {d} {c : Ctx W V P} (h : Active cfg d c) :
    After cfg d (drain c) := by
  unfold drain
  split
  · exact h
  · rename_i e q hq
    refine Or.inl ⟨⟨h.stack, h.ok, h.cache, h.final, ?_⟩, e, rfl, Or.inl (h.queue e (by simp [hq]))⟩
    exact fun e' he' => h.queue e' (by rw [hq]; exact List.mem_cons_of_mem _ he')

/-- An action that keeps control state, and sets queue and final event as described. -/
theorem active_same {cfg : Cfg W V P} {d d'} {c c' : Ctx W V P} (h : Active cfg d c)
    (hs : SameCtl c c') (hf : FinalIs c'.final d') (hq : ∀ e ∈ c'.queue, quiet e) :
    Active cfg d' c' :=
  ⟨by rw [hs.1]; exact h.stack, by rw [hs.1, hs.3]; exact h.ok, by rw [hs.2]; exact h.cache, hf, hq⟩

theorem after_leave {cfg : Cfg W V P} {d} {c : Ctx W V P} (h : Active cfg d c) :
    After cfg d (leave cfg c) := by
  unfold leave
  have hok := h.ok
  split
  · rename_i hs; exact absurd hs h.stack
  · rename_i fr rest hs
    simp only
    rw [hs] at hok
    split
    · rename_i hr
      have hr : rest = [] := by simpa using hr
      generalize hfin : finish cfg _ = s
      cases s with
      | cont c' => exact absurd hfin (finish_not_cont _ _ _)
      | ret o c' => 
        have := fun hf hs hq => finish_over (d := d) hf hs hq hfin
        exact Or.inr (this h.final hr h.queue)
    · rename_i hr
      exact ⟨by simpa using hr, hok.2.2, h.cache, h.final, h.queue⟩

theorem after_finishLoop {cfg : Cfg W V P} {d} {c : Ctx W V P} {er} (hf : FinalIs c.final d)
    (hq : ∀ e ∈ c.queue, quiet e) : After cfg d (.ret (.error er) (finishLoop cfg c)) :=
  Or.inr ⟨by simpa [evs, dispositions] using finishLoop_over (cfg := cfg) hf hq, by simp, by simp⟩

theorem fcc_quiet (c : Ctx W V P) (fcc id) : ∀ e ∈ fccEvents c fcc id, quiet e := by
  unfold fccEvents; split <;> simp [quiet]

theorem popParts_final : ∀ (n : Nat) (c : Ctx W V P),
    (popParts n c).final = c.final ∧ (popParts n c).queue = c.queue
  | 0, c => ⟨rfl, rfl⟩
  | n + 1, c => by
    unfold popParts
    split
    · exact ⟨rfl, rfl⟩
    · have h := popParts_final n { c with part := ‹Nat›, partIter := ‹List Nat›, partStack := ‹_› }
      exact h

theorem setTarget_final (c : Ctx W V P) (t v) : (setTarget c t v).final = c.final := by
  cases t <;> rfl

theorem setTarget_quiet {c : Ctx W V P} {t v} (h : ∀ e ∈ c.queue, quiet e) :
    ∀ e ∈ (setTarget c t v).queue, quiet e := by
  cases t <;> simp_all [setTarget, quiet]

theorem notify_final (cfg : Cfg W V P) (c : Ctx W V P) (f fcc) :
    (execNotify cfg c f fcc).final = c.final := by
  unfold execNotify
  split
  · rfl
  · split
    · rfl
    · rfl
    · split <;> rfl

theorem notify_quiet {cfg : Cfg W V P} {c : Ctx W V P} {f fcc} (h : ∀ e ∈ c.queue, quiet e) :
    ∀ e ∈ (execNotify cfg c f fcc).queue, quiet e := by
  unfold execNotify
  split
  · exact h
  · split
    · exact h
    · intro e he
      simp only [List.mem_append, List.mem_cons, List.not_mem_nil, or_false] at he
      rcases he with (rfl | rfl) | he
      · trivial
      · trivial
      · exact fcc_quiet _ _ _ e he
    · split <;> simp [quiet]

/-- One instruction. -/
theorem after_exec {cfg : Cfg W V P} {c : Ctx W V P} {d} {fr rest}
    (hreg : ∀ n s, cfg.registered n = some s → InRange s)
    (h : Active cfg d c) (hs : c.stack = fr :: rest) (i : Instr W V P)
    (hi : fr.script.instrs[c.pos]? = some i) (hl : c.numInstr < cfg.cpuLimit) :
    After cfg (next cfg c d)
      (exec cfg { c with numInstr := c.numInstr + 1, pos := c.pos + 1 } i) := by
  have hlt : c.pos < fr.script.instrs.length := by
    by_contra hc
    rw [List.getElem?_eq_none (by omega)] at hi; simp at hi
  have hmem : i ∈ fr.script.instrs := List.mem_of_getElem? hi
  have hok := h.ok
  rw [hs] at hok
  obtain ⟨hp, hr, hrest⟩ := hok
  have hfetch : fetch c = some i := by simp [fetch, hs, hi]
  -- the state the instruction is executed in
  generalize hc0 : ({ c with numInstr := c.numInstr + 1, pos := c.pos + 1 } : Ctx W V P) = c0
  have h0 : Active cfg d c0 := by
    subst hc0
    exact ⟨h.stack, by rw [hs]; exact ⟨hlt, hr, hrest⟩, h.cache, h.final, h.queue⟩
  have hs0 : c0.stack = fr :: rest := by subst hc0; exact hs
  have hv0 : c0.view = c.view := by subst hc0; rfl
  -- jumps
  have jump : ∀ t, target i = some t → Active cfg d { c0 with pos := t } := by
    intro t ht
    exact ⟨h0.stack, by simp only [hs0]; exact ⟨hr i hmem t ht, hr, hrest⟩, h0.cache, h0.final,
      h0.queue⟩
  have plain : actOf cfg c = none → next cfg c d = d := by intro hn; simp [next, hn]
  cases i with
  | jz t =>
    rw [plain (by simp [actOf, hfetch])]
    simp only [exec]; split
    · exact h0
    · exact jump t rfl
  | jnz t =>
    rw [plain (by simp [actOf, hfetch])]
    simp only [exec]; split
    · exact jump t rfl
    · exact h0
  | jmp t =>
    rw [plain (by simp [actOf, hfetch])]
    exact jump t rfl
  | test f =>
    rw [plain (by simp [actOf, hfetch])]
    simp only [exec]
    split
    · exact ⟨h0.stack, h0.ok, h0.cache, h0.final, h0.queue⟩
    · exact Or.inl ⟨⟨h0.stack, h0.ok, h0.cache, h0.final, h0.queue⟩, _, rfl, Or.inl trivial⟩
    · exact after_finishLoop h0.final h0.queue
  | eval f =>
    rw [plain (by simp [actOf, hfetch])]
    simp only [exec]
    split
    · exact ⟨h0.stack, h0.ok, h0.cache, h0.final, h0.queue⟩
    · refine Or.inl ⟨⟨h0.stack, ?_, h0.cache, h0.final, h0.queue⟩, _, rfl, Or.inl trivial⟩
      subst hc0; simp only [hs]; exact ⟨by simpa using hp, hr, hrest⟩
  | clear a b m =>
    rw [plain (by simp [actOf, hfetch])]
    exact ⟨h0.stack, h0.ok, h0.cache, h0.final, h0.queue⟩
  | keep fl =>
    have hn : next cfg c d = some (.keep (fl c.view)) := by simp [next, actOf, hl, hfetch, judge]
    rw [hn]
    simp only [exec]
    have hb := sameCtl_build cfg c0
    have hact : Active cfg (some (.keep (fl c.view)))
        { (buildMessageId cfg c0).2 with
          final := some (.keep (fl c0.view) (buildMessageId cfg c0).2.mainId) } := by
      refine active_same h0 ⟨hb.1, hb.2, hb.3, hb.4, hb.5⟩ ?_ ?_
      · simp [FinalIs, hv0]
      · simpa using h0.queue
    split
    · exact hact
    · rename_i e l he
      exact Or.inl ⟨hact, e, rfl, Or.inl (build_quiet cfg c0 e (by rw [he]; simp))⟩
  | fileInto copy dest flags =>
    have hn : next cfg c d = judge d (.fileInto copy) := by simp [next, actOf, hl, hfetch]
    rw [hn]
    apply after_drain
    refine active_same h0 (sameCtl_fileInto ..) ?_ ?_
    · have hf := h0.final
      simp only [execFileInto, build_final]
      match d with
      | none =>
        rw [finalIs_none hf]
        cases copy <;> simp [judge, FinalIs]
      | some .discard =>
        rw [finalIs_discard hf]
        cases copy <;> simp [judge, FinalIs]
      | some (.keep []) =>
        obtain ⟨id, hid⟩ := finalIs_keep hf
        rw [hid]
        cases copy <;> simp [judge, FinalIs]
      | some (.keep (a :: b)) =>
        obtain ⟨id, hid⟩ := finalIs_keep hf
        rw [hid]
        cases copy <;> simp [judge, FinalIs]
    · intro e he
      simp only [execFileInto, List.mem_append, List.mem_singleton] at he
      rcases he with he | rfl
      · exact build_quiet _ _ e he
      · trivial
  | redirect list copy addr =>
    apply after_drain
    simp only [execRedirect, hv0]
    cases ha : addr c.view with
    | none =>
      rw [plain (by simp [actOf, hfetch, ha])]
      exact h0
    | some a =>
      simp only
      have e1 : c0.numRedirects = c.numRedirects := by subst hc0; rfl
      have e2 : c0.numOut = c.numOut := by subst hc0; rfl
      have e3 : c0.world = c.world := by subst hc0; rfl
      by_cases hlim : c.numRedirects < cfg.maxRedirects ∧ c.numOut < cfg.maxOut
            ∧ cfg.received c.world < cfg.maxReceived
      · rw [if_pos (by rw [e1, e2, e3]; exact hlim)]
        by_cases hown : (!list && cfg.own c0.world a) = true
        · rw [if_pos hown]
          rw [plain ?_]
          · exact h0
          · rw [e3] at hown
            simp only [Bool.and_eq_true, Bool.not_eq_true'] at hown
            simp [actOf, hfetch, ha, hown.1, hown.2]
        · rw [if_neg hown]
          have hn : next cfg c d = judge d (.redirect copy) := by
            rw [e3] at hown
            have : list = true ∨ cfg.own c.world a = false := by
              cases list <;> simp_all
            simp [next, actOf, hl, hfetch, ha, hlim.1, hlim.2.1, hlim.2.2, this]
          rw [hn]
          refine active_same h0 ⟨by simp, by simp, by simp, by simp, by simp⟩ ?_ ?_
          · have hf := h0.final
            simp only [build_final]
            match d with
            | none =>
              rw [finalIs_none hf]
              cases copy <;> simp [judge, FinalIs]
            | some .discard =>
              rw [finalIs_discard hf]
              cases copy <;> simp [judge, FinalIs]
            | some (.keep fl) =>
              obtain ⟨id, hid⟩ := finalIs_keep hf
              rw [hid]
              cases copy <;> simp [judge, FinalIs]
          · intro e he
            simp only [List.mem_append, List.mem_singleton] at he
            rcases he with he | rfl
            · exact build_quiet _ _ e he
            · trivial
      · rw [if_neg (by rw [e1, e2, e3]; exact hlim)]
        rw [plain ?_]
        · exact h0
        · have : ¬ (c.numRedirects < cfg.maxRedirects ∧ c.numOut < cfg.maxOut
            ∧ cfg.received c.world < cfg.maxReceived ∧ (list = true ∨ cfg.own c.world a = false)) :=
            fun hh => hlim ⟨hh.1, hh.2.1, hh.2.2.1⟩
          simp only [actOf, hfetch, ha, if_neg this, ite_self]
  | discard =>
    have hn : next cfg c d = some .discard := by simp [next, actOf, hl, hfetch, judge]
    rw [hn]
    exact ⟨h0.stack, h0.ok, h0.cache, trivial, h0.queue⟩
  | stop =>
    rw [plain (by simp [actOf, hfetch])]
    simp only [exec]
    generalize hfin : finish cfg _ = s
    cases s with
    | cont c' => exact absurd hfin (finish_not_cont _ _ _)
    | ret o c' => 
      have := fun hf hs hq => finish_over (d := d) hf hs hq hfin
      exact Or.inr (this h0.final rfl h0.queue)
  | reject f =>
    have hn : next cfg c d = none := by simp [next, actOf, hl, hfetch, judge]
    rw [hn]
    exact Or.inl ⟨⟨h0.stack, h0.ok, h0.cache, trivial, h0.queue⟩, _, rfl, Or.inl trivial⟩
  | forEveryPart t =>
    rw [plain (by simp [actOf, hfetch])]
    simp only [exec]
    split
    · exact ⟨h0.stack, h0.ok, h0.cache, h0.final, h0.queue⟩
    · split
      · have := jump t rfl
        exact ⟨this.stack, this.ok, this.cache, this.final, this.queue⟩
      · exact ⟨h0.stack, h0.ok, h0.cache, h0.final, h0.queue⟩
  | forEveryPartPush =>
    rw [plain (by simp [actOf, hfetch])]
    exact ⟨h0.stack, h0.ok, h0.cache, h0.final, h0.queue⟩
  | forEveryPartPop n =>
    rw [plain (by simp [actOf, hfetch])]
    have e := sameCtl_popParts n c0
    have e' := popParts_final n c0
    exact active_same h0 e (by rw [e'.1]; exact h0.final) (by rw [e'.2]; exact h0.queue)
  | «while» f t =>
    rw [plain (by simp [actOf, hfetch])]
    simp only [exec]
    split
    · split
      · exact ⟨h0.stack, h0.ok, h0.cache, h0.final, h0.queue⟩
      · have := jump t rfl
        exact ⟨this.stack, this.ok, this.cache, this.final, this.queue⟩
    · refine Or.inl ⟨⟨h0.stack, ?_, h0.cache, h0.final, h0.queue⟩, _, rfl, Or.inl trivial⟩
      subst hc0; simp only [hs]; exact ⟨by simpa using hp, hr, hrest⟩
  | let_ t f =>
    rw [plain (by simp [actOf, hfetch])]
    simp only [exec]
    split
    · rename_i v w _
      have h1 : Active cfg d { c0 with world := w } :=
        ⟨h0.stack, h0.ok, h0.cache, h0.final, h0.queue⟩
      exact active_same h1 (sameCtl_setTarget ..) (by rw [setTarget_final]; exact h1.final)
        (setTarget_quiet h1.queue)
    · refine Or.inl ⟨⟨h0.stack, ?_, h0.cache, h0.final, h0.queue⟩, _, rfl, Or.inl trivial⟩
      subst hc0; simp only [hs]; exact ⟨by simpa using hp, hr, hrest⟩
  | edit f =>
    rw [plain (by simp [actOf, hfetch])]
    exact ⟨h0.stack, h0.ok, h0.cache, h0.final, h0.queue⟩
  | assign t f =>
    rw [plain (by simp [actOf, hfetch])]
    apply after_drain
    exact active_same h0 (sameCtl_setTarget ..) (by rw [setTarget_final]; exact h0.final)
      (setTarget_quiet h0.queue)
  | editFlags t f =>
    rw [plain (by simp [actOf, hfetch])]
    exact active_same h0 (sameCtl_setTarget ..) (by rw [setTarget_final]; exact h0.final)
      (setTarget_quiet h0.queue)
  | notify f g =>
    rw [plain (by simp [actOf, hfetch])]
    apply after_drain
    refine active_same h0 (sameCtl_notify ..) ?_ ?_
    · rw [notify_final]; exact h0.final
    · exact notify_quiet h0.queue
  | vacation f g =>
    rw [plain (by simp [actOf, hfetch])]
    show After cfg d (drain (execVacation c0 f g))
    apply after_drain
    refine active_same h0 (sameCtl_vacation ..) h0.final ?_
    intro e he
    simp only [execVacation, List.mem_append, List.mem_cons, List.not_mem_nil, or_false] at he
    rcases he with (rfl | rfl) | he
    · trivial
    · trivial
    · exact fcc_quiet _ _ _ e he
  | «include» once opt name =>
    rw [plain (by simp [actOf, hfetch])]
    simp only [exec]
    split
    · rename_i s he
      have hin : InRange s := by
        unfold execInclude at he
        split at he
        · simp at he
        · rename_i n _
          split at he
          · split at he
            · split at he
              · rename_i s' hs'
                injection he with he; subst he
                cases hlk : lookup c0.cache n with
                | none => rw [hlk] at hs'; exact hreg _ _ (by simpa using hs')
                | some s2 =>
                  rw [hlk] at hs'
                  simp only [Option.some_or, Option.some.injEq] at hs'
                  subst hs'
                  unfold lookup at hlk
                  rw [Option.map_eq_some_iff] at hlk
                  obtain ⟨x, hx, rfl⟩ := hlk
                  exact h0.cache x (List.mem_of_find?_eq_some hx)
              · simp at he
            · simp at he
          · simp at he
      exact ⟨by simp [pushScript], ⟨by simp [pushScript], hin, h0.ok⟩, h0.cache, h0.final, h0.queue⟩
    · exact Or.inl ⟨h0, _, rfl, Or.inr ⟨_, _, rfl⟩⟩
    · exact after_finishLoop h0.final h0.queue
    · exact h0
  | return_ =>
    rw [plain (by simp [actOf, hfetch])]
    exact after_leave h0
  | require caps =>
    rw [plain (by simp [actOf, hfetch])]
    simp only [exec]
    split
    · exact h0
    · exact after_finishLoop h0.final h0.queue
  | error f =>
    rw [plain (by simp [actOf, hfetch])]
    exact after_finishLoop h0.final h0.queue
  | invalid p =>
    rw [plain (by simp [actOf, hfetch])]
    exact after_finishLoop h0.final h0.queue

/-- A pass in an active state. -/
theorem after_step {cfg : Cfg W V P} {c : Ctx W V P} {d}
    (hreg : ∀ n s, cfg.registered n = some s → InRange s) (h : Active cfg d c) :
    After cfg (next cfg c d) (step cfg c) := by
  obtain ⟨fr, rest, hs⟩ := List.exists_cons_of_ne_nil h.stack
  rcases step_cases (cfg := cfg) hs with ⟨_, i, hi, _, ⟨hl, e⟩ | ⟨hl, e⟩⟩ | ⟨hf, _, e⟩ | ⟨_, hl, _⟩
  · rw [e]
    have : next cfg c d = d := by
      unfold next actOf
      rw [if_neg (by omega)]
    rw [this]
    exact after_finishLoop h.final h.queue
  · rw [e]
    exact after_exec hreg h hs i hi hl
  · rw [e]
    have : next cfg c d = d := by
      unfold next actOf
      rw [hf]
      simp
    rw [this]
    exact after_leave h
  · have := h.ok
    rw [hs] at this
    have := this.1
    omega

theorem protocol_inv {h : List (Label W V P)} {l} (hp : Protocol (h ++ [l])) :
    (h = [] ∧ ∃ n s, l = .input (.script n s) ∧ Accepted s)
    ∨ (Protocol h ∧ ∀ n s, l = .input (.script n s) →
        ∃ h' m o, h = h' ++ [.output (.event (.includeScript m o))]) := by
  generalize hk : h ++ [l] = k at hp
  cases hp with
  | first n ha =>
    rename_i s
    have hk : h ++ [l] = [] ++ [.input (.script n s)] := hk
    have := List.append_inj' hk rfl
    simp only [List.cons.injEq, and_true] at this
    exact Or.inl ⟨this.1, n, s, this.2, ha⟩
  | other hp hne =>
    have := List.append_inj' hk rfl
    simp only [List.cons.injEq, and_true] at this
    obtain ⟨rfl, rfl⟩ := this
    exact Or.inr ⟨hp, fun n s e => absurd e (hne n s)⟩
  | incl hp =>
    rename_i h' n o m s
    have hk : h ++ [l] = (h' ++ [.output (.event (.includeScript n o))]) ++ [.input (.script m s)] := by
      simpa using hk
    have := List.append_inj' hk rfl
    simp only [List.cons.injEq, and_true] at this
    obtain ⟨rfl, rfl⟩ := this
    exact Or.inr ⟨hp, fun _ _ _ => ⟨h', n, o, rfl⟩⟩

/-- The state of a session that follows the protocol. -/
def Phase (cfg : Cfg W V P) (h : List (Label W V P)) : Mode W V P → Prop
  | .running c =>
    Active cfg (verdict (acts cfg h)) c ∧ dispositions (events h) = [] ∧ .none ∉ outputs h
  | .waiting c =>
    (Active cfg (verdict (acts cfg h)) c ∧ dispositions (events h) = [] ∧ .none ∉ outputs h)
    ∨ (Over cfg (verdict (acts cfg h)) (dispositions (events h)) c
      ∧ (∀ h' n o, h ≠ h' ++ [.output (.event (.includeScript n o))])
      ∧ (.none ∈ outputs h → dispositions c.queue = []))

theorem acts_pass (cfg : Cfg W V P) (h : List (Label W V P)) (c : Ctx W V P) (l)
    (hl : passes l = [c]) :
    verdict (acts cfg (h ++ l)) = next cfg c (verdict (acts cfg h)) := by
  unfold acts next verdict
  rw [passes_append, List.filterMap_append, List.foldl_append, hl]
  cases ha : actOf cfg c <;> simp [ha]

theorem acts_none (cfg : Cfg W V P) (h : List (Label W V P)) (l) (hl : passes l = []) :
    acts cfg (h ++ l) = acts cfg h := by
  unfold acts
  rw [passes_append, hl]; simp

theorem scriptsOf_append (a b : List (Label W V P)) :
    scriptsOf (a ++ b) = scriptsOf a ++ scriptsOf b := by simp [scriptsOf]

/-- Entering `run`. -/
theorem enter_active {cfg : Cfg W V P} {d} {c : Ctx W V P} (h : Active cfg d c) :
    (∃ e q, c.queue = e :: q ∧ quiet e ∧ enter c = .ret (.event e) { c with queue := q }
        ∧ Active cfg d { c with queue := q })
    ∨ enter c = .cont c := by
  unfold enter
  cases hq : c.queue with
  | nil =>
    right
    have := h.stack
    cases hs : c.stack <;> simp_all
  | cons e q =>
    left
    refine ⟨e, q, rfl, h.queue e (by simp [hq]), rfl, h.stack, h.ok, h.cache, h.final, ?_⟩
    exact fun e' he' => h.queue e' (by rw [hq]; exact List.mem_cons_of_mem _ he')

theorem enter_over {cfg : Cfg W V P} {d told} {c c' : Ctx W V P} {o} (h : Over cfg d told c)
    (he : enter c = .ret o c') :
    Over cfg d (told ++ dispositions (evs o)) c' ∧ (∀ n p, o ≠ .event (.includeScript n p))
      ∧ (o = .none → dispositions c'.queue = [])
      ∧ (dispositions c.queue = [] → dispositions c'.queue = []) := by
  unfold enter at he
  split at he
  · rename_i e q hq
    injection he with h1 h2; subst h1; subst h2
    refine ⟨⟨h.stack, h.final, fun e' he' => h.queue e' (by rw [hq]; exact List.mem_cons_of_mem _ he'),
      ?_⟩, ?_, by simp, ?_⟩
    · have := h.carried
      rw [hq, show e :: q = [e] ++ q from rfl, dispositions_append] at this
      simpa [evs, List.append_assoc] using this
    · intro n p hh
      injection hh with hh
      subst hh
      exact h.queue _ (by rw [hq]; exact List.mem_cons_self ..)
    · intro hd
      rw [hq, show e :: q = [e] ++ q from rfl, dispositions_append, List.append_eq_nil_iff] at hd
      exact hd.2
  · rename_i hq
    split at he
    · injection he with h1 h2; subst h1; subst h2
      exact ⟨⟨h.stack, h.final, h.queue, by simpa [evs, dispositions] using h.carried⟩, by simp,
        fun _ => by rw [hq]; rfl, id⟩
    · simp at he

theorem enter_over_ret {cfg : Cfg W V P} {d told} {c : Ctx W V P} (h : Over cfg d told c) (c') :
    enter c ≠ .cont c' := by
  unfold enter
  split
  · simp
  · simp [h.stack]

/-- An input that is not a script does not change what the invariants talk about. -/
theorem active_input {cfg : Cfg W V P} {d} {c : Ctx W V P} (h : Active cfg d c)
    (i : Input W V P) (hi : ∀ n s, i = .script n s → InRange s) :
    Active cfg d (applyInput cfg c i) := by
  cases i with
  | true => exact ⟨h.stack, h.ok, h.cache, h.final, h.queue⟩
  | false => exact ⟨h.stack, h.ok, h.cache, h.final, h.queue⟩
  | fncResult v => exact ⟨h.stack, h.ok, h.cache, h.final, h.queue⟩
  | script n s =>
    have hr := hi n s rfl
    simp only [applyInput]
    split
    · refine ⟨by simp [pushScript], ⟨by simp [pushScript], hr, h.ok⟩, ?_, h.final, h.queue⟩
      intro x hx
      simp only [pushScript, List.mem_cons] at hx
      rcases hx with rfl | hx
      · exact hr
      · exact h.cache x hx
    · exact h

theorem over_input {cfg : Cfg W V P} {d told} {c : Ctx W V P} (h : Over cfg d told c)
    (i : Input W V P) (hi : ∀ n s, i ≠ .script n s) : Over cfg d told (applyInput cfg c i) := by
  cases i with
  | true => exact ⟨h.stack, h.final, h.queue, h.carried⟩
  | false => exact ⟨h.stack, h.final, h.queue, h.carried⟩
  | fncResult v => exact ⟨h.stack, h.final, h.queue, h.carried⟩
  | script n s => exact absurd rfl (hi n s)

theorem last_ne {h h' : List (Label W V P)} {a l l'} (e : h ++ [a, l] = h' ++ [l']) : l = l' := by
  have e : (h ++ [a]) ++ [l] = h' ++ [l'] := by simpa using e
  have := List.append_inj' e rfl
  simpa using this.2

theorem hist_nil {cfg : Cfg W V P} {c0 c : Ctx W V P} (h : Hist cfg c0 [] (.waiting c)) :
    c = c0 := by
  generalize hk : ([] : List (Label W V P)) = k at h
  generalize hm : Mode.waiting c = m at h
  cases h with
  | start => injection hm
  | _ => simp at hk

/-- Main invariant of sessions that follow the protocol. -/
theorem phase {cfg : Cfg W V P} {w : W} {h : List (Label W V P)} {m}
    (hreg : ∀ n s, cfg.registered n = some s → InRange s)
    (hh : Hist cfg (Ctx.new w) h m) (hsc : ∀ s ∈ scriptsOf h, InRange s)
    (hp : h ≠ [] → Protocol h) :
    (h = [] ∧ m = .waiting (Ctx.new w)) ∨ Phase cfg h m := by
  induction hh with
  | start => exact Or.inl ⟨rfl, rfl⟩
  | @feedRet h c i o c' hh he ih =>
    right
    have hp := hp (by simp)
    have hpa : Protocol ((h ++ [.input i]) ++ [.output o]) := by simpa using hp
    rcases protocol_inv hpa with ⟨hn, _⟩ | ⟨hpi, _⟩
    · simp at hn
    have hsc' : ∀ s ∈ scriptsOf h, InRange s := fun s hs => hsc s (by rw [scriptsOf_append]; simp [hs])
    have hev : dispositions (events (h ++ [.input i, .output o]))
        = dispositions (events h) ++ dispositions (evs o) := by
      rw [events_append, dispositions_append]
      cases o <;> rfl
    have hact : acts cfg (h ++ [.input i, .output o]) = acts cfg h := acts_none _ _ _ rfl
    have hir : ∀ n s, i = .script n s → InRange s := by
      rintro n s rfl
      exact hsc s (by rw [scriptsOf_append]; simp [scriptsOf])
    rcases protocol_inv hpi with ⟨rfl, n, s, hl, ha⟩ | ⟨hp0, hl⟩
    · -- the first script
      injection hl with hl; subst hl
      have hc := hist_nil hh
      subst hc
      exfalso
      simp [applyInput, Ctx.new, enter, pushScript, maxMatchVars, maxLocalVars, ha.1, ha.2] at he
    · rcases ih hsc' (fun _ => hp0) with ⟨rfl, hm⟩ | hph
      · exfalso
        generalize hk : ([] : List (Label W V P)) = k at hp0
        cases hp0 <;> simp at hk
      · rcases hph with ⟨hA, hd, hn⟩ | ⟨hO, hnl, hnq⟩
        · left
          have hA' := active_input hA i hir
          rcases enter_active hA' with ⟨e, q, hq, hqe, hen, hact'⟩ | hen
          · rw [hen] at he
            injection he with h1 h2; subst h1; subst h2
            refine ⟨by rw [hact]; exact hact', ?_, ?_⟩
            · rw [hev, hd, dispositions_quiet (q := evs (.event e)) (by simpa [evs] using hqe)]; rfl
            · simp only [outputs_append, List.mem_append, not_or]
              exact ⟨hn, by simp [outputs]⟩
          · rw [hen] at he; simp at he
        · right
          have hi : ∀ n s, i ≠ .script n s := by
            rintro n s rfl
            obtain ⟨h', m, o, rfl⟩ := hl n s rfl
            exact hnl h' m o rfl
          obtain ⟨h1, h2, h3, h4⟩ := enter_over (over_input hO i hi) he
          refine ⟨by rw [hact, hev]; exact h1, ?_, ?_⟩
          · intro h' n p e
            have := last_ne e
            injection this with this
            exact h2 n p this
          · intro hmem
            rw [outputs_append, List.mem_append] at hmem
            rcases hmem with hmem | hmem
            · refine h4 ?_
              have := hnq hmem
              cases i with
              | script n s => exact absurd rfl (hi n s)
              | _ => exact this
            · refine h3 ?_
              simpa [outputs, eq_comm] using hmem
  | @feedGo h c i c' hh he ih =>
    right
    have hp := hp (by simp)
    have hsc' : ∀ s ∈ scriptsOf h, InRange s := fun s hs => hsc s (by rw [scriptsOf_append]; simp [hs])
    have hact : acts cfg (h ++ [.input i]) = acts cfg h := acts_none _ _ _ rfl
    have hir : ∀ n s, i = .script n s → InRange s := by
      rintro n s rfl
      exact hsc s (by rw [scriptsOf_append]; simp [scriptsOf])
    have hen : ∀ c1 : Ctx W V P, enter c1 = .cont c' → c' = c1 := by
      intro c1 h1
      unfold enter at h1
      split at h1
      · simp at h1
      · split at h1
        · simp at h1
        · exact (Step.cont.inj h1).symm
    rcases protocol_inv hp with ⟨rfl, n, s, hl, ha⟩ | ⟨hp0, hl⟩
    · injection hl with hl; subst hl
      have hc := hist_nil hh
      subst hc
      have hc' := hen _ he
      subst hc'
      refine ⟨⟨?_, ?_, ?_, ?_, ?_⟩, rfl, by simp [outputs]⟩
      · simp [applyInput, Ctx.new, pushScript, maxMatchVars, maxLocalVars, ha.1, ha.2]
      · simp [applyInput, Ctx.new, pushScript, maxMatchVars, maxLocalVars, ha.1, ha.2, okStack,
          hir n s rfl]
      · simp [applyInput, Ctx.new, pushScript, maxMatchVars, maxLocalVars, ha.1, ha.2, hir n s rfl]
      · simp [applyInput, Ctx.new, pushScript, maxMatchVars, maxLocalVars, ha.1, ha.2, acts, passes,
          verdict, FinalIs]
      · simp [applyInput, Ctx.new, pushScript, maxMatchVars, maxLocalVars, ha.1, ha.2]
    · rcases ih hsc' (fun _ => hp0) with ⟨rfl, hm⟩ | hph
      · exfalso
        generalize hk : ([] : List (Label W V P)) = k at hp0
        cases hp0 <;> simp at hk
      · rcases hph with ⟨hA, hd, hn⟩ | ⟨hO, hnl, hnq⟩
        · have hA' := active_input hA i hir
          have := hen _ he
          subst this
          refine ⟨by rw [hact]; exact hA', ?_, ?_⟩
          · rw [events_append]; simpa [events] using hd
          · rw [outputs_append]; simpa [outputs] using hn
        · exfalso
          have hi : ∀ n s, i ≠ .script n s := by
            rintro n s rfl
            obtain ⟨h', m, o, rfl⟩ := hl n s rfl
            exact hnl h' m o rfl
          exact enter_over_ret (over_input hO i hi) _ he
  | @pass h c c' hh he ih =>
    right
    have hp := hp (by simp)
    have hsc' : ∀ s ∈ scriptsOf h, InRange s := fun s hs => hsc s (by rw [scriptsOf_append]; simp [hs])
    rcases protocol_inv hp with ⟨rfl, n, s, hl, ha⟩ | ⟨hp0, hl⟩
    · simp at hl
    rcases ih hsc' (fun _ => hp0) with ⟨_, hm⟩ | ⟨hA, hd, hn⟩
    · simp at hm
    have := after_step hreg hA
    rw [he] at this
    refine ⟨?_, ?_, ?_⟩
    · rw [acts_pass cfg h c _ rfl]; exact this
    · rw [events_append]; simpa [events] using hd
    · rw [outputs_append]; simpa [outputs] using hn
  | @passRet h c o c' hh he ih =>
    right
    have hp := hp (by simp)
    have hsc' : ∀ s ∈ scriptsOf h, InRange s := fun s hs => hsc s (by rw [scriptsOf_append]; simp [hs])
    have hpa : Protocol ((h ++ [.pass c]) ++ [.output o]) := by simpa using hp
    rcases protocol_inv hpa with ⟨hn, _⟩ | ⟨hpi, _⟩
    · simp at hn
    rcases protocol_inv hpi with ⟨rfl, n, s, hl, ha⟩ | ⟨hp0, hl⟩
    · simp at hl
    rcases ih hsc' (fun _ => hp0) with ⟨_, hm⟩ | ⟨hA, hd, hn⟩
    · simp at hm
    have hev : dispositions (events (h ++ [.pass c, .output o]))
        = dispositions (events h) ++ dispositions (evs o) := by
      rw [events_append, dispositions_append]
      cases o <;> rfl
    have := after_step hreg hA
    rw [he] at this
    rcases this with ⟨h1, e, rfl, hq⟩ | ⟨h1, h2, h3⟩
    · left
      refine ⟨?_, ?_, ?_⟩
      · rw [acts_pass cfg h c _ rfl]; exact h1
      · rw [hev, hd]
        rcases hq with hq | ⟨n, p, rfl⟩
        · rw [dispositions_quiet (q := evs (.event e)) (by simpa [evs] using hq)]; rfl
        · rfl
      · simp only [outputs_append, List.mem_append, not_or]
        exact ⟨hn, by simp [outputs]⟩
    · right
      refine ⟨?_, ?_, ?_⟩
      · rw [acts_pass cfg h c _ rfl, hev, hd]; exact h1
      · intro h' n p e
        have := last_ne e
        injection this with this
        exact h2 n p this
      · intro hmem
        rw [outputs_append, List.mem_append] at hmem
        rcases hmem with hmem | hmem
        · exact absurd hmem hn
        · refine h3 ?_
          simpa [outputs, eq_comm] using hmem

end Sieve.Vm
