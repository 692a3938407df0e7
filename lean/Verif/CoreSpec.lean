import Verif.CoreModel

/-!
# What a script of the core language says

RFC 5228 (with RFC 3894, 5232, 5233, 5260, 5703, 6009 as far as they give tags to these commands and tests), on the structure of the
script and the arguments as they are written: no instructions, no fields of instructions, no state of an interpreter.
-/

namespace Sieve.Core

open Sieve.Args Sieve.Fields Sieve.Compile

variable {W V F N S : Type}

/-- Nothing in the arguments is to be expanded. -/
def Fixed : Arg F → Prop
  | .val v => ∀ s, v ≠ .var s
  | .vals vs => ∀ s, .var s ∉ vs
  | .pair a b => (∀ s, a ≠ .var s) ∧ ∀ s, b ≠ .var s
  | _ => True

def Constant (g : Got F) : Prop := (∀ a ∈ g.pos, Fixed a) ∧ ∀ p ∈ g.tags, Fixed p.2

/-! ## Tests -/

/-- The test `w` with the arguments `g` is true of a message with the parts `t`. -/
def IsTrue [DecidableEq N] (env : Written.Env F N) (size : Nat) (t : Mime.Tree) : Word → Got F → Prop
  | .Header, g => ∃ hs ks, g.pos = [.vals hs, .vals ks] ∧ ∃ hd, Written.Seen env g t hs hd ∧ ∃ v, Written.Reads env g hd v ∧
      ∃ k ∈ ks, Written.Meets env.x g (.text v) (.val (env.eval k))
  | .Address, g => ∃ hs ks, g.pos = [.vals hs, .vals ks] ∧ ∃ hd, Written.Seen env g t hs hd ∧
      ∃ q v, Written.Part g q ∧ Tests.AddressValue env.x q hd.value v ∧
        ∃ k ∈ ks, Written.Meets env.x g (.text v) (.val (env.eval k))
  | .Envelope, g => ∃ ns ks, g.pos = [.texts ns, .vals ks] ∧
      ∃ f ∈ env.envelope, (∃ w ∈ ns, ∃ n, Written.FieldName n f.1 ∧ lower w = bytes n) ∧
        ∃ q z v, Written.Part g q ∧ Written.ZoneIs g z ∧
          Tests.EnvelopeValue env.x q (z.map env.shift) f.1 (Tests.text env.x.flt f.2) v ∧
          ∃ k ∈ ks, Written.Meets env.x g (.text v) (.val (env.eval k))
  | .Exists, g => ∃ hs, g.pos = [.vals hs] ∧ ∀ w ∈ hs, ∀ name, env.headerName (Tests.text env.x.flt (env.eval w)) = some name →
      ∃ id, Written.Searched g t id ∧ ∃ p, env.parts[id]? = some p ∧ ∃ hd ∈ p.headers, hd.name = name
  | .Size, g => ∃ n, g.pos = [.num n] ∧ (Uses g .Over ∧ n < size ∨ Uses g .Under ∧ size < n)
  | _, _ => False

/-- Tests of the core language; `:count` and `:list` are other extensions. -/
def Test : Script.Node F → Prop
  | .test w g => w ∈ [Word.Header, .Address, .Envelope] ∧ Written.Comparing g ∨ w ∈ [Word.Exists, .Size]
  | _ => False

def CoreTest (n : Script.Node F) : Prop := Constant (got n) ∧ Test n

mutual
def CoreTestE : TestE (Script.Node F) (Script.Node F) (List UInt8) → Prop
  | .atom .tru => True
  | .atom .fls => True
  | .atom (.leaf n) => CoreTest n
  | .atom _ => False
  | .not e => CoreTestE e
  | .any l => CoreTests l
  | .all l => CoreTests l
def CoreTests : Tests (Script.Node F) (Script.Node F) (List UInt8) → Prop
  | .one e => CoreTestE e
  | .cons e l => CoreTestE e ∧ CoreTests l
end

mutual
/-- A test is true, `h` says which single tests are. -/
def Holds (h : Word → Got F → Prop) : TestE (Script.Node F) (Script.Node F) (List UInt8) → Prop
  | .atom .tru => True
  | .atom (.leaf (.test w g)) => h w g
  | .atom _ => False
  | .not e => ¬ Holds h e
  | .any l => Some h l
  | .all l => All h l
/-- One of the tests is true. -/
def Some (h : Word → Got F → Prop) : Tests (Script.Node F) (Script.Node F) (List UInt8) → Prop
  | .one e => Holds h e
  | .cons e l => Holds h e ∨ Some h l
/-- All tests are true. -/
def All (h : Word → Got F → Prop) : Tests (Script.Node F) (Script.Node F) (List UInt8) → Prop
  | .one e => Holds h e
  | .cons e l => Holds h e ∧ All h l
end

/-! ## Commands -/

/-- The actions of a script so far, and the number of times it has sent the message. -/
structure St where
  sent : Nat
  acts : List (Base.Action Place)

/-- The number of messages that count as sent: those sent on, vacation replies, and notifications, except those by mail
(`Notify.mail_not_counted`). -/
def outgoing : List (Base.Action Place) → Nat
  | [] => 0
  | .redirect _ _ :: l => outgoing l + 1
  | .notify _ _ :: l => outgoing l + 1
  | .mail .vacation _ _ _ _ :: l => outgoing l + 1
  | _ :: l => outgoing l

/-- The flags of a command: those it names, or those of the script. -/
def FlagsAre (H : Host W F N) (w : W) (g : Got F) (fl : List String) : Prop :=
  ∃ l, Written.Lists (H.env w) g .Flags l ∧
    (l ≠ [] → ∃ fs, Written.FlagsIn (H.env w).x.ws l fs ∧ fl = fs.map String.ofList) ∧
    (l = [] → fl = (Flags.flagsOf (H.flagText w)).map String.ofList)

/-- The folder that `fileinto` names. -/
def FolderIs (H : Host W F N) (w : W) (g : Got F) (p : Place) : Prop :=
  ∃ v name mid su cr, g.pos = [.val v] ∧ p = .folder name mid su cr ∧ Written.TextOf (H.env w) v name ∧
    Written.Says (H.env w) g .MailboxId mid ∧ Written.Says (H.env w) g .SpecialUse su ∧ (cr = true ↔ Uses g .Create)

/-- `redirect` sends the message to `a`: that is an address, no limit is reached, and it is not the user's own address. -/
structure Goes (H : Host S F N) (cfg : Vm.Cfg W V Place) (w : S) (g : Got F) (s : St) (a : Event.Text) : Prop where
  address : ∃ v t, g.pos = [.val v] ∧ Written.TextOf (H.env w) v t ∧ Address.sanitizeAddress t = some a
  redirects : s.sent < cfg.maxRedirects
  out : outgoing s.acts < cfg.maxOut
  received : H.received w < cfg.maxReceived
  notUser : Uses g .List ∨ a.map Char.toLower ≠ (H.user w).map Char.toLower

/-- Where a message goes that is sent to `a`. -/
def AddressIs (H : Host W F N) (w : W) (g : Got F) (a : Event.Text) (p : Place) : Prop :=
  ∃ d rt t, p = .address (Event.recipient g a) d rt t ∧ Stores g [.Notify] DsnMeans .default d ∧ Stores g [.Ret] RetMeans .default rt ∧
    Event.TimeSent (H.events w) g t

/-- One command; the flag says whether the script ends. -/
inductive Does (H : Host S F N) (cfg : Vm.Cfg W V Place) (w : S) : Script.Node F → St → St → Bool → Prop where
  | require {ns s} : Does H cfg w (.require ns) s s false
  | keep {g s fl} : FlagsAre H w g fl → Does H cfg w (.cmd .Keep g) s { s with acts := s.acts ++ [.keep fl] } false
  | discard {g s} : Does H cfg w (.cmd .Discard g) s { s with acts := s.acts ++ [.discard] } false
  | stop {g s} : Does H cfg w (.cmd .Stop g) s s true
  | fileinto {g s p fl copy} : FolderIs H w g p → FlagsAre H w g fl → (copy = true ↔ Uses g .Copy) →
      Does H cfg w (.cmd .FileInto g) s { s with acts := s.acts ++ [.fileinto copy p fl] } false
  | redirect {g s a p copy} : Goes H cfg w g s a → AddressIs H w g a p → (copy = true ↔ Uses g .Copy) →
      Does H cfg w (.cmd .Redirect g) s ⟨s.sent + 1, s.acts ++ [.redirect copy p]⟩ false
  | reject {g s v t} : g.pos = [.val v] → Written.TextOf (H.env w) v t →
      Does H cfg w (.cmd .Reject g) s { s with acts := s.acts ++ [.reject (.sender false t)] } false
  | ereject {g s v t} : g.pos = [.val v] → Written.TextOf (H.env w) v t →
      Does H cfg w (.cmd .Ereject g) s { s with acts := s.acts ++ [.reject (.sender true t)] } false
  | stays {g s} : (¬ ∃ a, Goes H cfg w g s a) → Does H cfg w (.cmd .Redirect g) s s false

/-- Commands of the core language, whose extensions are allowed. -/
def Command (H : Host S F N) (cfg : Vm.Cfg W V Place) : Script.Node F → Prop
  | .require ns => ∀ c ∈ H.caps ns, cfg.allowed c = true
  | .cmd w _ => w ∈ [Word.Keep, .Discard, .Stop, .FileInto, .Redirect, .Reject, .Ereject]
  | _ => False

def CoreCmd (H : Host S F N) (cfg : Vm.Cfg W V Place) (n : Script.Node F) : Prop := Constant (got n) ∧ Command H cfg n

/-- Commands one after the other. -/
inductive DoesAll (H : Host W F N) (cfg : Vm.Cfg W V Place) (w : W) : List (Script.Node F) → St → St → Bool → Prop where
  | nil {s} : DoesAll H cfg w [] s s false
  | ends {n l s s'} : Does H cfg w n s s' true → DoesAll H cfg w (n :: l) s s' true
  | cons {n l s m s' b} : Does H cfg w n s m false → DoesAll H cfg w l m s' b → DoesAll H cfg w (n :: l) s s' b

abbrev HoldsIn [DecidableEq N] (H : Host W F N) (w : W) (t : Mime.Tree) (e : TestE (Script.Node F) (Script.Node F) (List UInt8)) : Prop :=
  Holds (IsTrue (H.env w) (H.size w) t) e

mutual
/-- What the script does from one state to another; the flag says whether it has ended. -/
inductive RunStmt [DecidableEq N] (H : Host W F N) (cfg : Vm.Cfg W V Place) (w : W) (t : Mime.Tree) :
    Stmt (Script.Node F) (Script.Node F) (List UInt8) → St → St → Bool → Prop where
  | act {l s s' b} : DoesAll H cfg w l s s' b → RunStmt H cfg w t (.act l) s s' b
  | cond {c s s' b} : RunChain H cfg w t c s s' b → RunStmt H cfg w t (.cond c) s s' b
inductive RunBlk [DecidableEq N] (H : Host W F N) (cfg : Vm.Cfg W V Place) (w : W) (t : Mime.Tree) :
    Whole.Prog F → St → St → Bool → Prop where
  | nil {s} : RunBlk H cfg w t .nil s s false
  | ends {c l s s'} : RunStmt H cfg w t c s s' true → RunBlk H cfg w t (.cons c l) s s' true
  | cons {c l s m s' b} : RunStmt H cfg w t c s m false → RunBlk H cfg w t l m s' b → RunBlk H cfg w t (.cons c l) s s' b
/-- The block after the first test that is true, that of `else` if there is none. -/
inductive RunChain [DecidableEq N] (H : Host W F N) (cfg : Vm.Cfg W V Place) (w : W) (t : Mime.Tree) :
    Chain (Script.Node F) (Script.Node F) (List UInt8) → St → St → Bool → Prop where
  | one {e b s s' f} : HoldsIn H w t e → RunBlk H cfg w t b s s' f → RunChain H cfg w t (.one e b none) s s' f
  | oneNot {e b s} : ¬ HoldsIn H w t e → RunChain H cfg w t (.one e b none) s s false
  | els {e b c s s' f} : HoldsIn H w t e → RunBlk H cfg w t b s s' f → RunChain H cfg w t (.els e b none c none) s s' f
  | elsNot {e b c s s' f} : ¬ HoldsIn H w t e → RunBlk H cfg w t c s s' f → RunChain H cfg w t (.els e b none c none) s s' f
  | elif {e b c s s' f} : HoldsIn H w t e → RunBlk H cfg w t b s s' f → RunChain H cfg w t (.elif e b none c) s s' f
  | elifNot {e b c s s' f} : ¬ HoldsIn H w t e → RunChain H cfg w t c s s' f → RunChain H cfg w t (.elif e b none c) s s' f
end

mutual
/-- Scripts of the core language. -/
def CoreStmt (H : Host W F N) (cfg : Vm.Cfg W V Place) : Stmt (Script.Node F) (Script.Node F) (List UInt8) → Prop
  | .act l => ∀ n ∈ l, CoreCmd H cfg n
  | .cond c => CoreChain H cfg c
  | _ => False
def CoreBlk (H : Host W F N) (cfg : Vm.Cfg W V Place) : Blk (Script.Node F) (Script.Node F) (List UInt8) → Prop
  | .nil => True
  | .cons c l => CoreStmt H cfg c ∧ CoreBlk H cfg l
def CoreChain (H : Host W F N) (cfg : Vm.Cfg W V Place) : Chain (Script.Node F) (Script.Node F) (List UInt8) → Prop
  | .one e b cl => CoreTestE e ∧ CoreBlk H cfg b ∧ cl = none
  | .els e b cl c cl' => CoreTestE e ∧ CoreBlk H cfg b ∧ CoreBlk H cfg c ∧ cl = none ∧ cl' = none
  | .elif e b cl c => CoreTestE e ∧ CoreBlk H cfg b ∧ CoreChain H cfg c ∧ cl = none
end

/-- What the host is told at the end: to keep the message exactly if it is kept, with the flags of the last `keep` or else those of the
script; that it is discarded exactly if it is; otherwise nothing. -/
structure Finally (H : Host W F N) (w : W) (acts : List (Base.Action Place)) (l : List (Vm.Event Place)) : Prop where
  keep : ∀ fl, Base.Kept acts fl →
    l = [.keep (if fl = [] then (Flags.flagsOf (H.flagText w)).map String.ofList else fl) 0]
  discard : Base.Discarded acts → l = [.discard]
  other : (¬ ∃ fl, Base.Kept acts fl) → ¬ Base.Discarded acts → l = []

end Sieve.Core
