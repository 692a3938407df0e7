import Verif.HvarModel

/-!
# What variables with a namespace mean

The names of the variables and of the parts of a header as tables, the indices, and the way a header variable is
written: names or a star, an index in brackets, a part after a dot, an index in brackets.
-/

namespace Sieve.Hvar

/-! ### Numbers -/

/-- The value of decimal digits. -/
def decimal (ds : List Char) : Nat := ds.foldl (fun n c => n * 10 + (c.toNat - '0'.toNat)) 0

/-- An integer as it may be written: digits, perhaps after a sign. -/
inductive Written : List Char → Int → Prop where
  | pos {ds} : ds ≠ [] → (∀ c ∈ ds, c.isDigit) → Written ds (decimal ds)
  | plus {ds} : ds ≠ [] → (∀ c ∈ ds, c.isDigit) → Written ('+' :: ds) (decimal ds)
  | minus {ds} : ds ≠ [] → (∀ c ∈ ds, c.isDigit) → Written ('-' :: ds) (-(decimal ds))

/-- What the text of an index means: nothing is the last header (or all of them, after a star), a star is all of
them, zero is the first. -/
inductive IndexMeans (wild : Bool) : List Char → Int → Prop where
  | last : wild = false → IndexMeans wild [] (-1)
  | all : wild = true → IndexMeans wild [] 0
  | star : IndexMeans wild ['*'] 0
  | num {t n} : Written t n → n ≠ 0 → -2 ^ 31 ≤ n → n < 2 ^ 31 → IndexMeans wild t n
  | zero {t} : Written t 0 → IndexMeans wild t 1

/-! ### Parts -/

def plainParts : List (String × HPart) :=
  [("", .text), ("text", .text), ("name", .address .name), ("type", .contentType .type),
    ("subtype", .contentType .subtype), ("id", .id), ("raw", .raw), ("raw_name", .rawName), ("date", .date),
    ("exists", .«exists»)]

def addrNames : List (String × AddrPart) :=
  [("name", .name), ("addr", .all), ("all", .all), ("addr.domain", .domain), ("addr.local", .localPart),
    ("addr.user", .user), ("addr.detail", .detail)]

def rcvdNames : List (String × RcvdPart) :=
  [("from", .«from» .any), ("from.name", .«from» .name), ("from.ip", .«from» .ip), ("ip", .fromIp), ("iprev", .fromIpRev),
    ("by", .by_ .any), ("by.name", .by_ .name), ("by.ip", .by_ .ip), ("for", .for_), ("with", .with_),
    ("tls", .tlsVersion), ("cipher", .tlsCipher), ("id", .id), ("ident", .ident), ("date", .date),
    ("date.raw", .dateRaw)]

/-- What the text of a part means. -/
inductive PartMeans : List Char → HPart → Prop where
  | plain {w p} : (w, p) ∈ plainParts → PartMeans w.toList p
  /-- what follows another dot is not looked at -/
  | more {w p t} : (w, p) ∈ plainParts → PartMeans (w.toList ++ '.' :: t) p
  | addr {d} : d = "addr" ∨ d = "addr." → PartMeans d.toList (.address .all)
  | addrSub {w p} : (w, p) ∈ addrNames → PartMeans ("addr.".toList ++ w.toList) (.address p)
  | attr {n} : n ≠ [] → PartMeans ("attr.".toList ++ n) (.contentType (.attribute n))
  | rcvd {d} : d = "rcvd" ∨ d = "rcvd." → PartMeans d.toList .text
  | rcvdSub {w p} : (w, p) ∈ rcvdNames → PartMeans ("rcvd.".toList ++ w.toList) (.received p)

/-! ### Header variables as written -/

/-- The headers: a star, or names with colons between them. -/
inductive Head where
  | any
  | names (l : List (List Char))

/-- A header variable as written, without white space. -/
structure Shape where
  head : Head
  /-- the text in the first brackets -/
  idx : Option (List Char)
  /-- the text after the dot -/
  part : Option (List Char)
  /-- the text in the second brackets -/
  pidx : Option (List Char)

def bracket : Option (List Char) → List Char
  | none => []
  | some t => '[' :: t ++ [']']

def Head.text : Head → List Char
  | .any => ['*']
  | .names l => [':'].intercalate l

def Shape.text (s : Shape) : List Char :=
  s.head.text ++ bracket s.idx ++ (s.part.elim [] ('.' :: ·)) ++ bracket s.pidx

/-- None of the characters, and no white space. -/
def Free (cs : List Char) (t : List Char) : Prop := ∀ c ∈ t, c ∉ cs ∧ c ∉ [' ', '\t', '\r', '\n']

/-- The pieces do not contain what separates them, and second brackets come after a part or after an index. -/
structure Shape.Ok (s : Shape) : Prop where
  head : match s.head with
    | .any => True
    | .names l => l ≠ [] ∧ (∀ n ∈ l, n ≠ [] ∧ Free ['[', '.', ':'] n) ∧ ∀ n ∈ l.head?, n.head? ≠ some '*'
  idx : ∀ t ∈ s.idx, Free [']'] t
  part : ∀ t ∈ s.part, Free ['['] t
  pidx : ∀ t ∈ s.pidx, Free [']'] t
  second : s.pidx ≠ none → s.part = none → s.idx ≠ none ∧ s.idx ≠ some []

/-- The names of the headers, found by `hn`. -/
inductive Heads {N : Type} (hn : List Char → Option N) : Head → List N → Prop where
  | any : Heads hn .any []
  | names {l ns} : List.Forall₂ (fun t n => hn t = some n) l ns → Heads hn (.names l) ns

def Head.wild : Head → Bool
  | .any => true
  | .names _ => false

/-- What a header variable means. -/
structure Shape.Means {N : Type} (hn : List Char → Option N) (s : Shape) (h : HVar N) : Prop where
  head : Heads hn s.head h.name
  part : PartMeans (s.part.getD []) h.part
  idx : IndexMeans s.head.wild (s.idx.getD []) h.indexHdr
  pidx : IndexMeans s.head.wild (s.pidx.getD []) h.indexPart

/-! ### Variables -/

def envNames : List (String × Env) :=
  [("from", .«from»), ("to", .to), ("by_time_absolute", .byTimeAbsolute), ("by_time_relative", .byTimeRelative),
    ("by_mode", .byMode), ("by_trace", .byTrace), ("notify", .notify), ("orcpt", .orcpt), ("ret", .ret),
    ("envid", .envid)]

def partNames : List (String × MPart) :=
  [("body.text", .textBody false), ("body.html", .htmlBody false), ("body.to_text", .textBody true),
    ("body.to_html", .htmlBody true), ("part.text", .contents), ("part.raw", .raw)]

/-- What a name means, given the global and the local variables. -/
inductive NameMeans {N : Type} (hn : List Char → Option N) (globals : Scope.Name → Prop) (locals : Scope.Name → Option Nat) :
    Scope.Name → Var N → Prop where
  | plainGlobal {v} : '.' ∉ v → globals v → NameMeans hn globals locals v (.global v)
  | plainLocal {v i} : '.' ∉ v → ¬ globals v → locals v = some i → NameMeans hn globals locals v (.«local» i)
  | global {v x} : x ≠ [] → Scope.ascii v = "global.".toList ++ x ∨ Scope.ascii v = "t.".toList ++ x →
      NameMeans hn globals locals v (.global x)
  | env {v x} : x ≠ [] → Scope.ascii v = "env.".toList ++ x → NameMeans hn globals locals v (.environment x)
  | envelope {v w e} : (w, e) ∈ envNames → Scope.ascii v = "envelope.".toList ++ w.toList →
      NameMeans hn globals locals v (.envelope e)
  | header {v x h} : x ≠ [] → Scope.ascii v = "header.".toList ++ x → parseHeader hn x = some h →
      NameMeans hn globals locals v (.header h)
  | part {v w p} : (w, p) ∈ partNames → Scope.ascii v = w.toList → NameMeans hn globals locals v (.part p)

/-! ### Picking -/

/-- `b` is what the index `k` picks from `l`: the one with `k - 1` before it, the one with `-k - 1` after it. -/
def Picked {α : Type} (l : List α) (k : Int) (b : α) : Prop :=
  ∃ pre post, l = pre ++ b :: post ∧ ((0 < k ∧ (pre.length : Int) = k - 1) ∨ (k < 0 ∧ (post.length : Int) = -k - 1))

/-! ### White space -/

def blank (b : UInt8) : Bool := b = 32 || b = 9 || b = 10 || b = 12 || b = 13

/-- A text of words after gaps. -/
inductive Words : List UInt8 → List (List UInt8) → Prop where
  | none {g} : (∀ x ∈ g, blank x) → Words g []
  | word {g w r ws} : (∀ x ∈ g, blank x) → g ≠ [] → (∀ x ∈ w, ¬ blank x) → w ≠ [] → Words r ws →
      Words (g ++ w ++ r) (w :: ws)

end Sieve.Hvar
