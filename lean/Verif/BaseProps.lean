import Verif.BaseSim
import Verif.WholeProps
import Verif.SourceExamples

/-!
# C113: scripts of the base language do what RFC 5228 says

`BaseSpec` says what such a script does, on the structure of the script.  Here the interpreter, running what the compiler has made of the
script, is shown to tell the host exactly that.
-/

namespace Sieve.Base

open Sieve.Vm Sieve.Compile Sieve.Source

variable {W V P A T E : Type} {cfg : Cfg W V P}

theorem answers_protocol {n : Name} {s : Script W V P} {r : List (Label W V P)} (ha : Accepted s) (hA : Answers (io r)) :
    Protocol (.input (.script n s) :: r) ∧ scriptsOf (.input (.script n s) :: r) = [s] := by
  have h1 : ∀ l ∈ r, ∀ n s, l ≠ .input (.script n s) := by
    rintro l hl n s rfl
    rcases hA (.script n s) (by simp only [io, List.mem_filterMap]; exact ⟨_, hl, rfl⟩) with h | h <;> cases h
  refine ⟨protocol_single ha r h1, ?_⟩
  simp only [scriptsOf, List.filterMap_cons, List.cons.injEq, true_and, List.filterMap_eq_nil_iff]
  intro l hl
  cases l with
  | input i =>
    cases i with
    | script n s => exact absurd rfl (h1 _ hl n s)
    | _ => rfl
  | _ => rfl

/-- **C113**, for the structure of scripts.  The host hands over a script of the base language and answers all events by `true` or `false`,
the questions as `ans` says.
If no action after a `keep` cancels the implicit keep, the message was not changed after it was last kept, filed or redirected except before
an implicit keep of it, and the limit of instructions is not exceeded, then the host is told the deliveries
of the script in their order, then what becomes of the message, and nothing else; there are no errors; and once the interpreter has
nothing more to say it has said all of it.

The full claim would have no conditions `KeepsLast` and `UpToDate`; `kept_message_lost`, `kept_message_changed` and `changed_message_lost` show
that it is false without them. -/
theorem base_structure_partial {lim : Limits} {I : Interp cfg A T E} {src : Script W V P → Blk A T E} {w : W} {n : Name} {s : Script W V P} {r m}
    (hE : ∀ v, cfg.isEmpty v = true → v = cfg.empty)
    (hh : Hist cfg (Ctx.new w) (.input (.script n s) :: r) m) (ha : Accepted s) (hA : Answers (io r))
    {ans : Nat → Bool} (hQ : Answered ans (io r)) (hC : .output (.error .cpuLimit) ∉ io r) (hs : FromSource lim I src s)
    (hreg : ∀ n s, cfg.registered n = some s → FromSource lim I src s)
    {st : State W V P} (ho : outcome I (src s) w s.numVars s.numMatchVars ans = some st) (hk : KeepsLast st.acts) (hu : UpToDate st) :
    (∀ o, .output o ∈ io r → o = .none ∨ ∃ e, o = .event e) ∧
    ∃ l, Last cfg st l ∧ told (io r) <+: sent st.acts ++ l ∧ (.output .none ∈ io r → told (io r) = sent st.acts ++ l) := by
  obtain ⟨hp, hsc⟩ := answers_protocol (n := n) ha hA
  obtain ⟨sm, h1, -⟩ := runs_as_written hh (fun _ => hp) (fun s' h' => by rw [hsc, List.mem_singleton] at h'; exact h' ▸ hs) hreg
  rcases follows hE h1 ha ho hk hu (n := n) (r := io r) (.inr rfl) hA hQ hC with ⟨e, -⟩ | ⟨-, hout, hat⟩
  · cases e
  refine ⟨hout, ?_⟩
  have early : ∀ {c : Conf W V P A T E} {acts} {t}, (∃ K q, todo I K t (stateOf c.ctx acts ans) = some (st, q)) → told (io r) <+: sent acts → .output .none ∉ io r →
      ∃ l, Last cfg st l ∧ told (io r) <+: sent st.acts ++ l ∧ (.output .none ∈ io r → told (io r) = sent st.acts ++ l) := by
    rintro c acts t ⟨K, q, hd⟩ ht hn
    obtain ⟨l, hl⟩ := last_exists (cfg := cfg) st hk hu
    refine ⟨l, hl, ?_, fun h => absurd h hn⟩
    exact (ht.trans (sent_mono (todo_mono K _ (stateOf c.ctx acts ans) _ _ hd))).trans (List.prefix_append _ _)
  cases sm with
  | running c =>
    obtain ⟨hn, acts, ⟨K, -, -, -, q, hd⟩, ht⟩ := hat
    exact early ⟨K, q, hd⟩ (ht ▸ List.prefix_rfl) hn
  | waiting c =>
    rcases hat with ⟨hn, acts, ⟨K, -, -, -, -, q, hd⟩, ht⟩ | ⟨hn, r0, acts, p, e, ⟨K, -, -, -, q, hd⟩, ht⟩ | ⟨-, h3, l, h1, h2⟩
    · exact early ⟨K, q, hd⟩ ⟨_, ht⟩ hn
    · refine early ⟨K, q, hd⟩ ?_ hn
      rw [e, told_append, ht, sent_append]
      exact List.prefix_rfl
    · exact ⟨l, h1, ⟨_, h2⟩, fun h => by rw [← h2, h3 h, List.append_nil]⟩

/-- **C113**, from the text of the script. -/
theorem base_text_partial {F : Type} [DecidableEq F] {lx : Lex.Ext Args.Word F} {x : Args.Ext F} {lim : Limits} {maxSize : Nat}
    {I : Interp cfg (Script.Node F) (Script.Node F) (List UInt8)} {src : Vm.Script W V P → Whole.Prog F} {w : W} {n : Name} {s : Vm.Script W V P} {r m}
    (hE : ∀ v, cfg.isEmpty v = true → v = cfg.empty)
    (hh : Hist cfg (Ctx.new w) (.input (.script n s) :: r) m) (ha : Accepted s) (hA : Answers (io r))
    {ans : Nat → Bool} (hQ : Answered ans (io r)) (hC : .output (.error .cpuLimit) ∉ io r) (hs : Whole.FromText lx x lim maxSize I src s)
    (hreg : ∀ n s, cfg.registered n = some s → Whole.FromText lx x lim maxSize I src s)
    {st : State W V P} (ho : outcome I (src s) w s.numVars s.numMatchVars ans = some st) (hk : KeepsLast st.acts) (hu : UpToDate st) :
    (∀ o, .output o ∈ io r → o = .none ∨ ∃ e, o = .event e) ∧
    ∃ l, Last cfg st l ∧ told (io r) <+: sent st.acts ++ l ∧ (.output .none ∈ io r → told (io r) = sent st.acts ++ l) :=
  base_structure_partial hE hh ha hA hQ hC (Whole.FromText.source hs) (fun n s h => Whole.FromText.source (hreg n s h)) ho hk hu

/-! ## A script -/

def act (i : DInstr) (h : Plain i := by trivial) : DAct := ⟨i, h⟩

/-- ```
require "fileinto";
if anyof (false, not <the host says so of "q">) { discard; stop; }
elsif <there are no flags> { fileinto :copy "A"; redirect :copy "x@example.org"; keep; }
else { discard; }
redirect :copy "y@example.org";      # one redirect is allowed
fileinto :copy "B";
``` -/
def exBlk : DBlk :=
  .cons (.act [act (.require [.known "fileinto"])])
    (.cons (.cond (.elif (.any (.cons (.atom .fls) (.one (.not (.atom (.leaf fun v => ⟨.event "q" false, v.matchv, v.world, false⟩))))))
        (.cons (.act [act .discard, act .stop]) .nil) none
      (.els (.atom (.leaf fun v => ⟨.bool v.world.isEmpty, v.matchv, v.world, false⟩))
        (.cons (.act [act (.fileInto true (fun _ => "A") (fun _ => [])), act (.redirect false true (fun _ => some "x@example.org")),
          act (.keep fun _ => [])]) .nil) none
        (.cons (.act [act .discard]) .nil) none)))
    (.cons (.act [act (.redirect false true (fun _ => some "y@example.org")), act (.fileInto true (fun _ => "B") (fun _ => []))]) .nil))

theorem exBlk_ok : exBlk.Ok exLim [] := by
  simp [exBlk, exLim, Blk.Ok, Stmt.Ok, Chain.Ok, TestE.depth, Tests.depth]

theorem exBlk_conts : exBlk.Conts [] := by
  simp [exBlk, Blk.Conts, Stmt.Conts, Chain.Conts]

def exScript : Script (List String) Nat String := ⟨(exBlk.code [] 0).map demoI.lower, 0, 0⟩

theorem exScript_source : FromSource exLim demoI (fun _ => exBlk) exScript :=
  ⟨exBlk_ok, exBlk_conts, _, compile_render exBlk exBlk_ok, rfl⟩

/-- What the script does, by the specification. -/
theorem exOutcome : (outcome demoI exBlk [] 0 0 (· == 0)).map (fun st => (st.acts, st.edited)) =
    some ([.ask "q", .fileinto true "A" [], .redirect true "x@example.org", .keep [], .fileinto true "B" []], false) := by decide

/-- What the interpreter tells the host. -/
example : bareSees [.script ⟨false, ""⟩ exScript, .true, .true, .false, .true, .true] = some
    [.event (.query "q"), .event (.fileInto "A" [] 0), .event (.send .redirect "x@example.org" 0), .event (.fileInto "B" [] 0), .event (.keep [] 0), .none] := by
  decide

theorem bare_empty : ∀ v, bare.isEmpty v = true → v = bare.empty := by
  intro v h
  simpa [bare, demo] using h

/-- All hypotheses of `base_structure_partial` together. -/
example : ∃ r m st l, Hist bare (Ctx.new []) (.input (.script ⟨false, ""⟩ exScript) :: r) m ∧ (outcome demoI exBlk [] 0 0 (· == 0)) = some st ∧
    Last bare st l ∧ told (io r) = sent st.acts ++ l ∧ (told (io r)).length = 5 := by
  have hsome : (play bare (Ctx.new []) [.script ⟨false, ""⟩ exScript, .true, .true, .false, .true, .true]).isSome = true := by decide
  obtain ⟨⟨h, c⟩, hp⟩ := Option.isSome_iff_exists.mp hsome
  have hh : Hist bare (Ctx.new []) h (.waiting c) := play_hist _ .start hp
  have hfact : ((play bare (Ctx.new []) [.script ⟨false, ""⟩ exScript, .true, .true, .false, .true, .true]).all fun r =>
      ((io r.1.tail).all fun | .input .true | .input .false => true | .input _ => false | .output (.error _) => false | .output _ => true) &&
      ((io r.1.tail).any fun | .output .none => true | _ => false) && (told (io r.1.tail)).length == 5) = true := by decide
  have hio : (play bare (Ctx.new []) [.script ⟨false, ""⟩ exScript, .true, .true, .false, .true, .true]).map (fun r => io r.1.tail) =
      some [.output (.event (.query "q")), .input .true, .output (.event (.fileInto "A" [] 0)), .input .true,
        .output (.event (.send .redirect "x@example.org" 0)), .input .false, .output (.event (.fileInto "B" [] 0)), .input .true,
        .output (.event (.keep [] 0)), .input .true, .output .none] := rfl
  obtain ⟨t, ht⟩ := play_head hp
  simp only at ht
  subst ht
  rw [hp] at hfact hio
  have hQ : Answered (· == 0) (io t) := by
    intro h0 p i h1 e
    simp only [Option.map_some, List.tail_cons, Option.some.injEq] at hio
    rw [hio] at e
    rcases h0 with _ | ⟨a1, _ | ⟨a2, _ | ⟨a3, _ | ⟨a4, _ | ⟨a5, _ | ⟨a6, _ | ⟨a7, _ | ⟨a8, _ | ⟨a9, _ | ⟨a10, a⟩⟩⟩⟩⟩⟩⟩⟩⟩⟩ <;> simp at e
    · obtain ⟨-, rfl, -⟩ := e
      simp [questions, told]
    · have := congrArg List.length e.2.2.2.2.2.2.2.2.2.2
      simp at this
      omega
  simp only [Option.all_some, List.tail_cons, Bool.and_eq_true, List.all_eq_true, beq_iff_eq, List.any_eq_true] at hfact
  obtain ⟨⟨h1, x, h2, h2'⟩, h3⟩ := hfact
  have hA : Answers (io t) := by
    intro i hi
    have := h1 _ hi
    cases i <;> simp_all
  have hC : .output (.error .cpuLimit) ∉ io t := fun hi => by simpa using h1 _ hi
  have hN : .output .none ∈ io t := by
    split at h2'
    · exact h2
    · cases h2'
  obtain ⟨st, hst, hacts, hed⟩ : ∃ st, outcome demoI exBlk [] 0 0 (· == 0) = some st ∧
      st.acts = [.ask "q", .fileinto true "A" [], .redirect true "x@example.org", .keep [], .fileinto true "B" []] ∧ st.edited = false := by
    have := exOutcome
    simp only [Option.map_eq_some_iff, Prod.mk.injEq] at this
    exact this
  have hu : UpToDate st := ⟨fun _ _ => hed, fun _ => .inr (by rw [hacts]; rfl)⟩
  have hk : KeepsLast st.acts := by
    rw [hacts]
    intro a fl b e x hx hc
    rcases a with _ | ⟨a1, _ | ⟨a2, _ | ⟨a3, _ | ⟨a4, _ | ⟨a5, a⟩⟩⟩⟩⟩ <;> simp at e
    obtain ⟨-, -, -, -, rfl⟩ := e
    simp only [List.mem_singleton] at hx
    subst hx
    simp [Cancels] at hc
  obtain ⟨-, l, h4, -, h5⟩ := base_structure_partial (lim := exLim) (I := demoI) (src := fun _ => exBlk) bare_empty hh ⟨by decide, by decide⟩
    hA hQ hC exScript_source (by simp [bare]) hst hk hu
  exact ⟨t, _, st, l, hh, hst, h4, h5 hN, h3⟩

/-- ```
vacation :fcc "Sent" "away";         # the host has to say that it has not seen the sender
notify "mailto:x@example.org";
notify :fcc "Sent" "xmpp:x@example.org";
notify "tel:1";
``` -/
def mailBlk : DBlk :=
  .cons (.vac (fun v => ⟨.event "v" true, v.matchv, v.world, false⟩) (act (.vacation (fun _ => ("away", "s@example.org")) (some fun _ => ("Sent", [])))))
    (.cons (.act [act (.notify (fun _ => some ⟨.mailto (some ("x@example.org", "mail")), "plain", "event"⟩) none),
      act (.notify (fun _ => some ⟨.other, "plain", "xmpp"⟩) (some fun _ => ("Sent", []))),
      act (.notify (fun _ => some ⟨.other, "plain", "tel"⟩) none)]) .nil)

def mailScript : Script (List String) Nat String := ⟨(mailBlk.code [] 0).map demoI.lower, 0, 0⟩

/-- Messages are made, numbered in their order, sent and filed, if the host has not replied to the sender before. -/
example : (outcome demoI mailBlk [] 0 0 (fun _ => false)).map (fun st => sent st.acts) = some
      [.query "v", .created 1 "away", .send .vacation "s@example.org" 1, .fileInto "Sent" [] 1, .created 2 "mail", .send .notify "x@example.org" 2,
        .created 3 "plain", .notify "xmpp", .fileInto "Sent" [] 3, .notify "tel"] ∧
    bareSees [.script ⟨false, ""⟩ mailScript, .false, .true, .true, .true, .true, .true, .true, .true, .true, .true, .true] = some
      [.event (.query "v"), .event (.created 1 "away"), .event (.send .vacation "s@example.org" 1), .event (.fileInto "Sent" [] 1),
        .event (.created 2 "mail"), .event (.send .notify "x@example.org" 2), .event (.created 3 "plain"), .event (.notify "xmpp"),
        .event (.fileInto "Sent" [] 3), .event (.notify "tel"), .event (.keep [] 0), .none] := by
  constructor <;> decide

/-- The host has replied before. -/
example : (outcome demoI mailBlk [] 0 0 (fun _ => true)).map (fun st => (sent st.acts).take 3) = some
    [.query "v", .created 1 "mail", .send .notify "x@example.org" 1] := by decide

/-- ```
addheader "X" "1"; fileinto :copy "A"; redirect :copy "x@example.org"; addheader "X" "2";
``` -/
def editBlk : DBlk :=
  .cons (.act [act (.edit fun v => ("1" :: v.world, true)), act (.fileInto true (fun _ => "A") (fun _ => [])),
    act (.redirect false true (fun _ => some "x@example.org")), act (.edit fun v => ("2" :: v.world, true))]) .nil

def editScript : Script (List String) Nat String := ⟨(editBlk.code [] 0).map demoI.lower, 0, 0⟩

/-- The message is written down before it is filed and redirected, and again before it is kept; it is up to date. -/
example : (∃ st, outcome demoI editBlk [] 0 0 (fun _ => false) = some st ∧ UpToDate st ∧
      sent st.acts = [.created 1 (bare.render ["1"]), .fileInto "A" [] 1, .send .redirect "x@example.org" 1] ∧
      KeptAs bare st [.created 2 (bare.render ["2", "1"]), .keep ["2", "1"] 2]) ∧
    bareSees [.script ⟨false, ""⟩ editScript, .true, .true, .true, .true, .true] = some
      [.event (.created 1 (bare.render ["1"])), .event (.fileInto "A" [] 1), .event (.send .redirect "x@example.org" 1),
        .event (.created 2 (bare.render ["2", "1"])), .event (.keep ["2", "1"] 2), .none] := by
  refine ⟨⟨_, rfl, ⟨fun fl h => ?_, fun _ => .inl rfl⟩, rfl, .changed (fun x h => ?_) rfl⟩, by decide⟩
  · have h : Action.keep fl ∈ [Action.version 1 (bare.render ["1"]), .fileinto true "A" [], .redirect true "x@example.org"] := h
    simp at h
  · have h : x ∈ [Action.version 1 (bare.render ["1"]), .fileinto true "A" [], .redirect true "x@example.org"] := h
    simp at h
    rcases h with rfl | rfl | rfl <;> simp [Cancels]

/-- Commands of `Whole.someText` (`require "fileinto"; if true { fileinto "y"; }`). -/
def nodeAct : Script.Node Unit → DInstr
  | .require _ => .require [.known "fileinto"]
  | .cmd .FileInto _ => .fileInto false (fun _ => "y") (fun _ => [])
  | _ => .discard

def nodeI : Interp bare (Script.Node Unit) (Script.Node Unit) (List UInt8) where
  act := nodeAct
  plain := by
    intro a
    unfold nodeAct
    split <;> trivial
  test := fun _ v => ⟨.bool true, v.matchv, v.world, false⟩
  expr := fun _ v => .done 0 v.world
  bad := fun _ => ""
  notV := demoI.notV
  not_spec := demoI.not_spec

/-- The hypotheses of `base_text_partial` that concern the script, for a text. -/
example : ∃ s st, Whole.FromText Script.someLex Args.someExt ⟨9, 9, 9⟩ 1000 nodeI (fun _ => Whole.someProg) s ∧ Accepted s ∧
    outcome nodeI Whole.someProg [] s.numVars s.numMatchVars (fun _ => false) = some st ∧ st.acts = [.fileinto false "y" []] ∧ KeepsLast st.acts ∧
    UpToDate st := by
  have hok : Whole.someProg.Ok ⟨9, 9, 9⟩ [] := by
    simp [Whole.someProg, Compile.Blk.Ok, Compile.Stmt.Ok, Compile.Chain.Ok, Compile.TestE.depth]
  obtain ⟨ops, h1, -⟩ := Whole.structure_accepted (lim := ⟨9, 9, 9⟩) (maxSize := 1000) Whole.someText_structure (by decide +kernel) hok
  refine ⟨⟨ops.map nodeI.lower, 0, 0⟩, _, ⟨by simp [Whole.someProg, Compile.Blk.Conts, Compile.Stmt.Conts, Compile.Chain.Conts], hok,
    _, ops, Whole.someText_structure, h1, rfl⟩, ⟨by simp, by simp⟩, rfl, rfl, ?_, ⟨fun _ _ => rfl, fun _ => .inr rfl⟩⟩
  intro a fl b e
  have e : [.fileinto false "y" []] = a ++ .keep fl :: b := e
  rcases a with _ | ⟨a1, a⟩ <;> simp at e

/-! ## Where the claim fails -/

/-- `keep; fileinto "A";` -/
def lostBlk : DBlk := .cons (.act [act (.keep fun _ => []), act (.fileInto false (fun _ => "A") (fun _ => []))]) .nil

def lostScript : Script (List String) Nat String := ⟨(lostBlk.code [] 0).map demoI.lower, 0, 0⟩

/-- The script keeps the message, but the interpreter only files it: without `KeepsLast` the claim is false. -/
theorem kept_message_lost :
    (∃ st, outcome demoI lostBlk [] 0 0 (fun _ => false) = some st ∧ Kept st.acts []) ∧
    bareSees [.script ⟨false, ""⟩ lostScript, .true, .true] = some [.event (.fileInto "A" [] 0), .none, .none] := by
  refine ⟨⟨_, rfl, .explicit (a := []) (b := [.fileinto false "A" []]) rfl (by simp)⟩, by decide⟩

/-- `keep; addheader "X" "1";` -/
def laterBlk : DBlk := .cons (.act [act (.keep fun _ => []), act (.edit fun v => ("1" :: v.world, true))]) .nil

def laterScript : Script (List String) Nat String := ⟨(laterBlk.code [] 0).map demoI.lower, 0, 0⟩

/-- The script keeps the message and then changes it; the interpreter keeps the message as it was changed afterwards. -/
theorem kept_message_changed :
    (∃ st, outcome demoI laterBlk [] 0 0 (fun _ => false) = some st ∧ KeepsLast st.acts ∧ KeptAs bare st [.keep ["1"] 0]) ∧
    bareSees [.script ⟨false, ""⟩ laterScript, .true, .true] = some [.event (.created 1 (bare.render ["1"])), .event (.keep ["1"] 1), .none] := by
  refine ⟨⟨_, rfl, ?_, .explicit (fl := []) (a := []) (b := []) rfl (by simp)⟩, by decide⟩
  intro a fl b e x hx
  have e : [Action.keep []] = a ++ .keep fl :: b := e
  rcases a with _ | ⟨a1, a⟩ <;> simp at e
  rw [e.2] at hx
  cases hx

/-- `addheader "X" "1"; fileinto :copy "A";` -/
def earlierBlk : DBlk :=
  .cons (.act [act (.edit fun v => ("1" :: v.world, true)), act (.fileInto true (fun _ => "A") (fun _ => []))]) .nil

def earlierScript : Script (List String) Nat String := ⟨(earlierBlk.code [] 0).map demoI.lower, 0, 0⟩

/-- The script changes the message and files a copy; the interpreter keeps the message as it was received. -/
theorem changed_message_lost :
    (∃ st, outcome demoI earlierBlk [] 0 0 (fun _ => false) = some st ∧ KeepsLast st.acts ∧ KeptAs bare st [.keep ["1"] 1]) ∧
    bareSees [.script ⟨false, ""⟩ earlierScript, .true, .true, .true] = some
      [.event (.created 1 (bare.render ["1"])), .event (.fileInto "A" [] 1), .event (.keep ["1"] 0), .none] := by
  refine ⟨⟨_, rfl, ?_, .implicit (fun x h => ?_) rfl⟩, by decide⟩
  · intro a fl b e x hx
    have e : [Action.version 1 (bare.render ["1"]), .fileinto true "A" []] = a ++ .keep fl :: b := e
    rcases a with _ | ⟨a1, _ | ⟨a2, a⟩⟩ <;> simp at e
  · have h : x ∈ [Action.version 1 (bare.render ["1"]), .fileinto true "A" []] := h
    simp at h
    rcases h with rfl | rfl <;> simp [Cancels]

end Sieve.Base
