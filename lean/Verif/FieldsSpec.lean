import Verif.ArgsProps
import Verif.FieldsModel

/-!
# The instructions of commands and tests: what they should hold

What the tagged arguments mean, from the documents that define them, and when a field holds what a group of tags says.
Independent of the assignments of `FieldsModel`.
-/

namespace Sieve.Fields

open Sieve.Args

variable {F : Type} {α β : Type}

/-- The value `b` is what the tags `words` of the arguments `g` say: what is meant by each of them that is used, or the
default if none is. -/
structure Stores (g : Got F) (words : List Word) (means : Word → Arg F → β → Prop) (dflt b : β) : Prop where
  given : ∀ w a, (w, a) ∈ g.tags → w ∈ words → means w a b
  default : (∀ w ∈ words, ¬ Uses g w) → b = dflt

/-- A tag without argument. -/
def Flag (_ : Word) (a : Arg F) (b : Bool) : Prop := a = .flag ∧ b = true

/-- A tag with a string. -/
def One (_ : Word) (a : Arg F) (b : Option (Val F)) : Prop := ∃ v, a = .val v ∧ b = some v

/-- A tag with a list of strings. -/
def Many (_ : Word) (a : Arg F) (b : List (Val F)) : Prop := a = .vals b

/-- A tag with a number. -/
def Number (_ : Word) (a : Arg F) (b : Option Nat) : Prop := ∃ n, a = .num n ∧ b = some n

/-- `:personal` and `:global` (RFC 6609, 3.2). -/
inductive PlaceMeans : Word → Arg F → Bool → Prop where
  | personal : PlaceMeans .Personal .flag false
  | global : PlaceMeans .Global .flag true

/-- `:days` and `:seconds` (RFC 5230, 4.1, RFC 6131). -/
inductive PeriodMeans : Word → Arg F → Period → Prop where
  | days (n) : PeriodMeans .Days (.num n) (.days n)
  | seconds (n) : PeriodMeans .Seconds (.num n) (.seconds n)

/-- `:bymode` (RFC 6009, 4.1). -/
inductive ModeMeans : Word → Arg F → ByMode → Prop where
  | notify {s} : OneOf ["notify"] s → ModeMeans .ByMode (.text s) .notify
  | ret {s} : OneOf ["return"] s → ModeMeans .ByMode (.text s) .ret

/-- `:ret` (RFC 6009, 3.2). -/
inductive RetMeans : Word → Arg F → Ret → Prop where
  | full {s} : OneOf ["full"] s → RetMeans .Ret (.text s) .full
  | hdrs {s} : OneOf ["hdrs"] s → RetMeans .Ret (.text s) .hdrs

/-- The pieces of a text between its commas. -/
def Pieces (s : List UInt8) (ps : List (List UInt8)) : Prop :=
  ps ≠ [] ∧ (∀ p ∈ ps, (44 : UInt8) ∉ p) ∧ s = [(44 : UInt8)].intercalate ps

/-- The name of an item of `:notify`. -/
inductive ItemName : List UInt8 → NotifyItem → Prop where
  | success {s} : OneOf ["success"] s → ItemName s .success
  | failure {s} : OneOf ["failure"] s → ItemName s .failure
  | delay {s} : OneOf ["delay"] s → ItemName s .delay

/-- The items that are named in a list of pieces; pieces that name none are passed over. -/
inductive ItemsOf : List (List UInt8) → List NotifyItem → Prop where
  | nil : ItemsOf [] []
  | item {p i ps is} : ItemName (trim p) i → ItemsOf ps is → ItemsOf (p :: ps) (i :: is)
  | other {p ps is} : (∀ i, ¬ ItemName (trim p) i) → ItemsOf ps is → ItemsOf (p :: ps) is

/-- `:notify` of `redirect` (RFC 6009, 3.1). -/
inductive DsnMeans : Word → Arg F → Dsn → Prop where
  | never {s} : OneOf ["never"] s → DsnMeans .Notify (.text s) .never
  | items {s ps is} : Pieces s ps → ItemsOf ps is → is ≠ [] → DsnMeans .Notify (.text s) (.items is)

/-- The names of the comparisons of `:value` and `:count` (RFC 5231, 4). -/
def relNames : List (String × Rel) := [("gt", .gt), ("ge", .ge), ("lt", .lt), ("le", .le), ("eq", .eq), ("ne", .ne)]

/-- Match types (RFC 5228, 2.7.1, RFC 5231, RFC 6134). -/
inductive MatchMeans : Word → Arg F → MatchType → Prop where
  | is : MatchMeans .Is .flag .is
  | contains : MatchMeans .Contains .flag .contains
  | glob : MatchMeans .Matches .flag .glob
  | regex : MatchMeans .Regex .flag .regex
  | list : MatchMeans .List .flag .list
  | value {n r} : (n, r) ∈ relNames → MatchMeans .Value (.text (bytes n)) (.value r)
  | count {n r} : (n, r) ∈ relNames → MatchMeans .Count (.text (bytes n)) (.count r)

/-- The names of the comparators (RFC 4790). -/
def comparatorNames : List (String × Comparator) :=
  [("i;octet", .octet), ("i;ascii-casemap", .asciiCaseMap), ("i;ascii-numeric", .asciiNumeric)]

/-- `:comparator` (RFC 5228, 2.7.3).  The code keeps the names of other comparators. -/
inductive ComparatorMeans : Word → Arg F → Comparator → Prop where
  | known {n c} : (n, c) ∈ comparatorNames → ComparatorMeans .Comparator (.text (bytes n)) c
  | other {s} : (∀ p ∈ comparatorNames, s ≠ bytes p.1) → ComparatorMeans .Comparator (.text s) (.other s)

/-- Parts of addresses (RFC 5228, 2.7.4, RFC 5233). -/
inductive PartMeans : Word → Arg F → AddressPart → Prop where
  | localPart : PartMeans .LocalPart .flag .localPart
  | domain : PartMeans .Domain .flag .domain
  | all : PartMeans .All .flag .all
  | user : PartMeans .User .flag .user
  | detail : PartMeans .Detail .flag .detail
  | name : PartMeans .Name .flag .name

/-- The options of `header :mime` (RFC 5703, 4.1). -/
inductive MimeMeans : Word → Arg F → MimeOpts F → Prop where
  | type : MimeMeans .Type .flag .type
  | subtype : MimeMeans .Subtype .flag .subtype
  | contentType : MimeMeans .ContentType .flag .contentType
  | param (vs) : MimeMeans .Param (.vals vs) (.param vs)

/-- The transforms of `body` (RFC 5173, 5). -/
inductive BodyMeans : Word → Arg F → BodyTransform F → Prop where
  | raw : BodyMeans .Raw .flag .raw
  | text : BodyMeans .Text .flag .text
  | content (vs) : BodyMeans .Content (.vals vs) (.content vs)

/-- `:zone` and `:originalzone` (RFC 5260, 4.1 and 4.2). -/
inductive ZoneMeans : Word → Arg F → Zone → Prop where
  | zone (z) : ZoneMeans .Zone (.zone z) (.time z)
  | original : ZoneMeans .OriginalZone .flag .original

/-- `:zone` where there is no `:originalzone`. -/
def OffsetMeans (_ : Word) (a : Arg F) (b : Option Int) : Prop := ∃ z, a = .zone z ∧ b = some z

/-- `:header` and `:uniqueid` (RFC 7352, 3.1). -/
inductive DupMeans : Word → Arg F → DupMatch F → Prop where
  | header (v) : DupMeans .Header (.val v) (.header v)
  | uniqueId (v) : DupMeans .UniqueId (.val v) (.uniqueId v)

/-- `:index` and `:last` (RFC 5260, 6): counted from the end with `:last`. -/
structure IndexIs (g : Got F) (i : Option Int) : Prop where
  given : ∀ a, (.Index, a) ∈ g.tags → ∃ n : Nat, a = .num n ∧ (Uses g .Last → i = some (-(n : Int))) ∧
    (¬ Uses g .Last → i = some (n : Int))
  default : ¬ Uses g .Index → i = none

/-- The match type and comparator of a comparison. -/
structure Compares (g : Got F) (m : MatchType) (c : Comparator) : Prop where
  matchType : Stores g [.Is, .Contains, .Matches, .Value, .Count, .Regex, .List] MatchMeans .is m
  comparator : Stores g [.Comparator] ComparatorMeans .asciiCaseMap c

/-- The time limit of `redirect` (RFC 6009, 4.1). -/
structure TimeIs (g : Got F) (t : ByTime (Val F)) : Prop where
  absolute : ∀ a, (.ByTimeAbsolute, a) ∈ g.tags → ∃ v m b, a = .val v ∧ t = .absolute v m b ∧
    Stores g [.ByMode] ModeMeans .default m ∧ Stores g [.ByTrace] Flag false b
  relative : ∀ a, (.ByTimeRelative, a) ∈ g.tags → ∃ n m b, a = .num n ∧ t = .relative n m b ∧
    Stores g [.ByMode] ModeMeans .default m ∧ Stores g [.ByTrace] Flag false b
  none : ¬ Uses g .ByTimeAbsolute → ¬ Uses g .ByTimeRelative → t = .none

/-- The copy that `:fcc` asks for (RFC 8580, 3). -/
structure FccIs (g : Got F) (c : Option (Fcc F)) : Prop where
  given : ∀ a, (.Fcc, a) ∈ g.tags → ∃ k, c = some k ∧ a = .val k.mailbox ∧ Stores g [.Create] Flag false k.create ∧
    Stores g [.Flags] Many [] k.flags ∧ Stores g [.SpecialUse] One none k.specialUse ∧
    Stores g [.MailboxId] One none k.mailboxId
  default : ¬ Uses g .Fcc → c = none

end Sieve.Fields
