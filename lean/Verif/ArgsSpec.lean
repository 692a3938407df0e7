import Verif.ArgsTable

/-!
# Arguments: what the grammar of the language says

The sequences of tokens that are strings, string lists, tagged and positional arguments, written as a grammar
(RFC 5228, section 8.2, with the deviations of the code named at each rule) and independent of the readers of
`ArgsModel`.
-/

namespace Sieve.Args

variable {F : Type}

/-- A token that is a string, and its value. -/
inductive IsLit (x : Ext F) : Tok F → Val F → Prop where
  | text (s) : IsLit x (.string s) (.text s)
  | num (n) : IsLit x (.stringNumber n) (.num n)
  | var (s) (h : x.varOk s = true) : IsLit x (.stringVar s) (.var s)

/-- A token that is a constant string, and its text. -/
inductive IsConst (x : Ext F) : Tok F → List UInt8 → Prop where
  | text (s) : IsConst x (.string s) s
  | num (n) : IsConst x (.stringNumber n) (x.showNum n)

/-- What stands between the brackets of a list.  The code accepts commas anywhere and does not ask for them. -/
inductive Elems {α : Type} (item : Tok F → α → Prop) : List (Tok F) → List α → Prop where
  | nil : Elems item [] []
  | comma {ts vs} : Elems item ts vs → Elems item (.comma :: ts) vs
  | item {t v ts vs} : item t v → Elems item ts vs → Elems item (t :: ts) (v :: vs)

/-- A string or a list of one or more strings. -/
inductive IsList {α : Type} (item : Tok F → α → Prop) : List (Tok F) → List α → Prop where
  | one {t v} : item t v → IsList item [t] [v]
  | list {ts v vs} : Elems item ts (v :: vs) → IsList item (.bracketOpen :: ts ++ [.bracketClose]) (v :: vs)

/-- A string, or a list with a single string. -/
def IsString (x : Ext F) (ts : List (Tok F)) (v : Val F) : Prop := IsList (IsLit x) ts [v]

/-- A constant string; the code also accepts a list without commas, of which it takes the last string. -/
inductive IsStatic (x : Ext F) : List (Tok F) → List UInt8 → Prop where
  | one {t s} : IsConst x t s → IsStatic x [t] s
  | list {ts ss s} : List.Forall₂ (IsConst x) ts (ss ++ [s]) → IsStatic x (.bracketOpen :: ts ++ [.bracketClose]) s

/-- A time zone `±hhmm` as a number, and its offset in seconds. -/
def IsOffset (z off : Int) : Prop :=
  ∃ h m : Nat, m < 100 ∧ ((z = 100 * h + m ∧ z ≤ 1400 ∧ off = 3600 * h + 60 * m) ∨
    (z = -(100 * h + m) ∧ -1200 ≤ z ∧ off = -(3600 * h + 60 * m)))

/-- The number that a constant string spells for `:zone`. -/
inductive Spells (x : Ext F) : Tok F → Int → Prop where
  | text {s n} : x.parseInt s = some n → Spells x (.string s) n
  | int (n) : Spells x (.stringNumber (.int n)) n
  | flt (f) : Spells x (.stringNumber (.flt f)) (x.toInt f)

/-- A text is one of these words, in any case. -/
def OneOf (words : List String) (s : List UInt8) : Prop := ∃ w ∈ words, lower s = bytes w

/-- The value of `redirect :notify`: `NEVER`, or some of the three items among texts separated by commas. -/
def NotifyText (s : List UInt8) : Prop :=
  OneOf ["never"] s ∨ ∃ a i b, s = a ++ i ++ b ∧ (a = [] ∨ ∃ a', a = a' ++ [44]) ∧ (b = [] ∨ ∃ b', b = 44 :: b') ∧
    (44 : UInt8) ∉ i ∧ OneOf ["success", "failure", "delay"] (trim i)

/-- What may follow a tag. -/
inductive ArgIs (x : Ext F) : Kind → List (Tok F) → Arg F → Prop where
  | flag : ArgIs x .flag [] .flag
  | str {u v} : IsString x u v → ArgIs x .str u (.val v)
  | sender {u v} : IsString x u v → (∀ s, v = .text s → x.fromOk s = true) → ArgIs x .sender u (.val v)
  | header {u v} : IsString x u v → (∀ s, v = .text s → x.headerOk s = true) → ArgIs x .header u (.val v)
  | strs {u vs} : IsList (IsLit x) u vs → ArgIs x .strs u (.vals vs)
  | any {u s} : IsStatic x u s → ArgIs x (.static []) u (.text s)
  | choice {u s ws} : IsStatic x u s → OneOf ws s → ArgIs x (.static ws) u (.text s)
  | notify {u s} : IsStatic x u s → NotifyText s → ArgIs x .notifyItems u (.text s)
  | number {n max} : n < max → ArgIs x (.number max) [.number n] (.num n)
  | rel {t s} : IsConst x t s → s ∈ ["gt", "ge", "lt", "le", "eq", "ne"].map bytes → ArgIs x .rel [t] (.text s)
  | zone {t z off} : Spells x t z → IsOffset z off → ArgIs x .zone [t] (.zone off)
  | pair {a b v w} : IsLit x a v → IsLit x b w → ArgIs x .pair [a, b] (.pair v w)

/-- The capability that a name of `envelope` needs (RFC 6009): none for `from` and `to`. -/
inductive EnvelopeName : List UInt8 → Option Cap → Prop where
  | base {s} : OneOf ["from", "to"] s → EnvelopeName s none
  | deliverby {s} : OneOf ["bytimeabsolute", "bytimerelative", "bymode", "bytrace"] s →
      EnvelopeName s (some .EnvelopeDeliverBy)
  | dsn {s} : OneOf ["notify", "orcpt", "ret", "envid"] s → EnvelopeName s (some .EnvelopeDsn)

/-- What a positional argument may be. -/
inductive PosIs (x : Ext F) (has : Cap → Bool) : Pos → List (Tok F) → Arg F → Prop where
  | lit {t v} : IsLit x t v → PosIs x has (.lit false) [t] (.val v)
  | headerName {t v} : IsLit x t v → (∀ s, v = .text s → x.headerOk s = true) → PosIs x has (.lit true) [t] (.val v)
  | value {t v} : IsLit x t v → (∀ s, v = .text s → s.length ≤ x.maxHeader) → PosIs x has .value [t] (.val v)
  | uri {t v} : IsLit x t v → (∀ s, IsConst x t s → x.uriOk s = true) → PosIs x has .uri [t] (.val v)
  | str {u v} : IsString x u v → PosIs x has .str u (.val v)
  | strs {u vs} : IsList (IsLit x) u vs → PosIs x has (.strs false) u (.vals vs)
  | headerNames {u vs} : IsList (IsLit x) u vs → (∀ s, .text s ∈ vs → x.headerOk s = true) →
      PosIs x has (.strs true) u (.vals vs)
  | keys {u vs} : IsList (IsLit x) u vs → PosIs x has .keys u (.vals vs)
  | statics {u ss} : IsList (IsConst x) u ss → PosIs x has .statics u (.texts ss)
  | name {t s} : IsConst x t s → x.nameOk s = true → PosIs x has .name [t] (.text s)
  | const {t s} : IsConst x t s → PosIs x has .const [t] (.text s)
  | part {t s ws} : IsConst x t s → OneOf ws s → PosIs x has (.part ws) [t] (.text s)
  | envelope {u ss} : IsList (IsConst x) u ss →
      (∀ s ∈ ss, ∃ c, EnvelopeName s c ∧ ∀ k, c = some k → has k = true) → PosIs x has .envelope u (.texts ss)
  | expr {t s} : IsConst x t s → x.exprOk s = true → PosIs x has .expr [t] (.text s)
  | exprVar {s} : x.exprOk s = true → PosIs x has .expr [.stringVar s] (.text s)

/-- One argument with its tokens. -/
inductive Item (F : Type) where
  | tagged (w : Word) (u : List (Tok F)) (a : Arg F)
  | plain (u : List (Tok F)) (a : Arg F)

def Item.toks : Item F → List (Tok F)
  | .tagged w u _ => .tag w :: u
  | .plain u _ => u

/-- The tagged arguments in order. -/
def taggedOf (items : List (Item F)) : List (Word × Arg F) :=
  items.filterMap fun | .tagged w _ a => some (w, a) | .plain .. => none

/-- The positional arguments in order, with their tokens. -/
def plainOf (items : List (Item F)) : List (List (Tok F) × Arg F) :=
  items.filterMap fun | .tagged .. => none | .plain u a => some (u, a)

/-- The groups (numbers given to `validate_argument`) of the tags that have one. -/
def slotsOf (rows : Rows) (items : List (Item F)) : List Nat :=
  (taggedOf items).filterMap fun p => (rows.tag p.1).bind fun r => if r.slot = 0 then none else some r.slot

/-- The tokens of a list of arguments. -/
def spell (items : List (Item F)) : List (Tok F) := items.flatMap Item.toks

/-- Argument lists that are allowed: every tag is known, its extension declared, and what follows it is right; no two
tags are of one group; the positional arguments are the prescribed ones, and the last argument is positional. -/
structure Allowed (x : Ext F) (has : Cap → Bool) (rows : Rows) (ps : List Pos) (items : List (Item F)) : Prop where
  tags : ∀ w u a, .tagged w u a ∈ items →
    ∃ r, rows.tag w = some r ∧ (∀ c, r.cap = some c → has c = true) ∧ ArgIs x r.kind u a
  once : (slotsOf rows items).Nodup
  pos : List.Forall₂ (fun p q => PosIs x has p q.1 q.2) ps (plainOf items)
  last : ∃ init u a, items = init ++ [.plain u a]

/-- The tags and positional arguments of a list. -/
def gotOf (items : List (Item F)) : Got F := ⟨taggedOf items, (plainOf items).map (·.2)⟩

/-- The next token is not one of these tags. -/
def NoTag (rows : Rows) (r : List (Tok F)) : Prop := ∀ w r', r = .tag w :: r' → rows.tag w = none

/-- The next token does not begin a string or a list. -/
def NoString (r : List (Tok F)) : Prop :=
  ∀ t r', r = t :: r' → t ≠ .bracketOpen ∧ (∀ s, t ≠ .string s) ∧ (∀ n, t ≠ .stringNumber n) ∧ ∀ s, t ≠ .stringVar s

/-- The tag `w` was used. -/
def Uses (g : Got F) (w : Word) : Prop := ∃ a, (w, a) ∈ g.tags

/-- The keys of a comparison: of `deleteheader` the list that follows, if any; of `hasflag` the last list; otherwise the
last positional argument. -/
def keysOf (w : Word) (g : Got F) (tail : Option (List (Val F))) : List (Val F) :=
  let last := match g.pos.getLast? with | some (.vals vs) => vs | _ => []
  if w = .DeleteHeader then tail.getD [] else if w = .HasFlag then tail.getD last else last

/-- What is asked of the arguments together. -/
structure Checked (x : Ext F) (w : Word) (g : Got F) (tail : Option (List (Val F))) : Prop where
  /-- RFC 5703: `:anychild` and the options of `:mime` are errors without `:mime` -/
  mime : w ∈ [Word.Header, .Address, .Date, .Exists, .DeleteHeader] →
    ∀ o ∈ [Word.AnyChild, .Type, .Subtype, .ContentType, .Param], Uses g o → Uses g .Mime
  /-- RFC 8580: the options of `:fcc` are errors without it -/
  fcc : w ∈ [Word.Notify, .Vacation] →
    ∀ o ∈ [Word.Create, .Flags, .SpecialUse, .MailboxId], Uses g o → Uses g .Fcc
  /-- constant keys of `:regex` are regular expressions -/
  regex : w ∈ [Word.Header, .Address, .Date, .DeleteHeader, .Envelope, .Body, .CurrentDate, .String,
      .NotifyMethodCapability, .Environment, .Metadata, .ServerMetadata, .HasFlag] →
    Uses g .Regex → ∀ s, .text s ∈ keysOf w g tail → x.regexOk s = true
  /-- with two lists, the first of `hasflag` has names of variables -/
  names : w = .HasFlag → tail ≠ none → ∀ v ∈ keysOf w g none, ∃ s, v = .text s ∧ x.nameOk s = true
  /-- with two lists, the first of `specialuse_exists` is a single mailbox -/
  mailbox : w = .SpecialUseExists → tail ≠ none → (keysOf w g none).length = 1

/-- The arguments of a command or test of a given layout: `u` are their tokens, `r` what comes after. -/
inductive Reads (x : Ext F) (has : Cap → Bool) (w : Word) : Shape → List (Tok F) → List (Tok F) → Got F → Prop where
  | nothing (r) : Reads x has w .nothing [] r {}
  | noFlags {r} : (∀ r', r ≠ .tag .Flags :: r') → Reads x has w .keep [] r {}
  | keepFlags {u vs r} : has .Imap4Flags = true → IsList (IsLit x) u vs →
      Reads x has w .keep (.tag .Flags :: u) r { tags := [(.Flags, .vals vs)] }
  | flagsOf {t s u vs r} : IsConst x t s → x.nameOk s = true → IsList (IsLit x) u vs →
      Reads x has w .flags (t :: u) r { pos := [.text s, .vals vs] }
  | flagList {u vs r} : IsList (IsLit x) (.bracketOpen :: u) vs →
      Reads x has w .flags (.bracketOpen :: u) r { pos := [.vals vs] }
  | flag {t v r} : IsLit x t v → Reads x has w .flags [t] (.semicolon :: r) { pos := [.vals [v]] }
  | over {n r} : Reads x has w .size [.tag .Over, .number n] r { tags := [(.Over, .flag)], pos := [.num n] }
  | under {n r} : Reads x has w .size [.tag .Under, .number n] r { tags := [(.Under, .flag)], pos := [.num n] }
  | tags {rows items r} : (∀ i ∈ items, ∃ w u a, i = .tagged w u a) →
      (∀ w u a, .tagged w u a ∈ items →
        ∃ q, rows.tag w = some q ∧ (∀ c, q.cap = some c → has c = true) ∧ ArgIs x q.kind u a) →
      (slotsOf rows items).Nodup → NoTag rows r → Reads x has w (.tags rows) (spell items) r (gotOf items)
  | args {rows ps items r} : Allowed x has rows ps items → Checked x w (gotOf items) none →
      Reads x has w (.args rows ps false) (spell items) r (gotOf items)
  | noTail {rows ps items r} : Allowed x has rows ps items → NoString r → Checked x w (gotOf items) none →
      Reads x has w (.args rows ps true) (spell items) r (gotOf items)
  | tail {rows ps items u vs r} : Allowed x has rows ps items → IsList (IsLit x) u vs →
      Checked x w (gotOf items) (some vs) →
      Reads x has w (.args rows ps true) (spell items ++ u) r
        ⟨taggedOf items, (plainOf items).map (·.2) ++ [.vals vs]⟩

end Sieve.Args
