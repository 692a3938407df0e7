import Verif.ScopeModel
import Verif.AddressModel

/-!
# Variables with a namespace, and header variables

Model of `parse_variable` and `parse_header_variable` (`src/compiler/lexer/string.rs:275-471`), of the names of the
parts of a header (`:536-631`), and of the evaluation of header variables (`src/runtime/eval.rs:127-191`, `:207-401`)
with `to_text`, `eval_strict` and `sanitize_raw_header`.

Simplifications.  Text is a list of characters and names are ASCII, so that `to_lowercase` is `to_ascii_lowercase`.
The error of a header variable carries the text only, it is left out.  An `i32` is an integer within bounds.  The
parsers of mail-parser (`HeaderName::parse`, `parse_address`, `parse_date`, `parse_id`, `parse_unstructured`,
`parse_address_local_part` and so on, the accessors of `Received`) are parameters.  An overflow is a panic, as it is in a build with overflow checks.
-/

namespace Sieve.Hvar

open Scope (Name ascii)

/-- `AddressPart`, `src/compiler/grammar/mod.rs:92-99` -/
inductive AddrPart where
  | all | localPart | domain | user | detail | name
deriving DecidableEq

/-- `ContentTypePart`, `src/compiler/mod.rs:227-231` -/
inductive CtPart where
  | type | subtype
  | attribute (n : List Char)
deriving DecidableEq

/-- `ReceivedHostname`, `src/compiler/mod.rs:267-271` -/
inductive HostPart where
  | name | ip | any
deriving DecidableEq

/-- `ReceivedPart`, `src/compiler/mod.rs:242-257` -/
inductive RcvdPart where
  | «from» (h : HostPart)
  | fromIp | fromIpRev
  | by_ (h : HostPart)
  | for_ | with_ | tlsVersion | tlsCipher | id | ident | via | date | dateRaw
deriving DecidableEq

/-- `HeaderPart`, `src/compiler/mod.rs:206-216` -/
inductive HPart where
  | text | date | id
  | address (p : AddrPart)
  | contentType (p : CtPart)
  | received (p : RcvdPart)
  | raw | rawName | «exists»
deriving DecidableEq

/-- `HeaderVariable`, `src/compiler/mod.rs:174-179` -/
structure HVar (N : Type) where
  name : List N
  part : HPart
  indexHdr : Int
  indexPart : Int
deriving DecidableEq

/-! ### The names of the parts -/

/-- `AddressPart::try_from`, `string.rs:619-629` -/
def addrPart? (v : List Char) : Option AddrPart :=
  if v = "name".toList then some .name
  else if v = "addr".toList ∨ v = "all".toList then some .all
  else if v = "addr.domain".toList then some .domain
  else if v = "addr.local".toList then some .localPart
  else if v = "addr.user".toList then some .user
  else if v = "addr.detail".toList then some .detail
  else none

/-- `ReceivedPart::try_from`, `string.rs:592-613` -/
def rcvdPart? (v : List Char) : Option RcvdPart :=
  if v = "from".toList then some (.«from» .any)
  else if v = "from.name".toList then some (.«from» .name)
  else if v = "from.ip".toList then some (.«from» .ip)
  else if v = "ip".toList then some .fromIp
  else if v = "iprev".toList then some .fromIpRev
  else if v = "by".toList then some (.by_ .any)
  else if v = "by.name".toList then some (.by_ .name)
  else if v = "by.ip".toList then some (.by_ .ip)
  else if v = "for".toList then some .for_
  else if v = "with".toList then some .with_
  else if v = "tls".toList then some .tlsVersion
  else if v = "cipher".toList then some .tlsCipher
  else if v = "id".toList then some .id
  else if v = "ident".toList then some .ident
  else if v = "date".toList then some .date
  else if v = "date.raw".toList then some .dateRaw
  else none

/-- `str::split_once('.')`.  For `hpart?`, `string.rs:539-586`. -/
def splitDot : List Char → Option (List Char × List Char)
  | [] => none
  | c :: cs => if c = '.' then some ([], cs) else (splitDot cs).map fun r => (c :: r.1, r.2)

/-- `HeaderPart::try_from`, `string.rs:539-586` -/
def hpart? (v : List Char) : Option HPart :=
  let (v, sub) := (splitDot v).getD (v, [])
  if v = "".toList ∨ v = "text".toList then some .text
  else if v = "name".toList then some (.address .name)
  else if v = "addr".toList then
    if sub ≠ [] then (addrPart? sub).map .address else some (.address .all)
  else if v = "type".toList then some (.contentType .type)
  else if v = "subtype".toList then some (.contentType .subtype)
  else if v = "attr".toList ∧ sub ≠ [] then some (.contentType (.attribute sub))
  else if v = "rcvd".toList then
    if sub ≠ [] then (rcvdPart? sub).map .received else some .text
  else if v = "id".toList then some .id
  else if v = "raw".toList then some .raw
  else if v = "raw_name".toList then some .rawName
  else if v = "date".toList then some .date
  else if v = "exists".toList then some .«exists»
  else none

/-! ### Reading a header variable -/

/-- The digits of `i32::from_str`.  For `index?`, `string.rs:439-452`. -/
def digits : Nat → List Char → Option Nat
  | acc, [] => some acc
  | acc, c :: cs => if '0' ≤ c ∧ c ≤ '9' then digits (acc * 10 + (c.toNat - 48)) cs else none

/-- `str::parse::<i32>` of the standard library: a sign, at least one digit, no overflow.
For `index?`, `string.rs:439-452`. -/
def parseI32 (v : List Char) : Option Int :=
  let (neg, ds) :=
    match v with
    | '+' :: ds => (false, ds)
    | '-' :: ds => (true, ds)
    | ds => (false, ds)
  if ds = [] then none
  else
    match digits 0 ds with
    | none => none
    | some n =>
      if neg then if n ≤ 2 ^ 31 then some (-(n : Int)) else none
      else if n < 2 ^ 31 then some (n : Int) else none

/-- `State`, `string.rs:347-352` -/
inductive St where
  | name | index | part | partIndex
deriving DecidableEq

/-- The variables of the loop, `string.rs:353-360` -/
structure S (N : Type) where
  name : List N
  hasName : Bool
  wild : Bool
  hdr : List Char
  idx : List Char
  part : List Char
  pidx : List Char
  st : St

/-- `string.rs:353-360` -/
def S.init (N : Type) : S N := ⟨[], false, false, [], [], [], [], .name⟩

/-- For `step`, `string.rs:362-425`. -/
def isWs (c : Char) : Bool := c = ' ' || c = '\t' || c = '\r' || c = '\n'

/-- One turn of the loop, `string.rs:362-425`; `none` is an error. -/
def step {N : Type} (hn : List Char → Option N) (s : S N) (c : Char) : Option (S N) :=
  match s.st with
  | .name =>
    if c = '[' then
      if s.idx = [] then some { s with st := .index, hasName := true }
      else if s.part = [] then some { s with st := .partIndex, hasName := true }
      else none
    else if c = '.' then some { s with st := .part, hasName := true }
    else if isWs c then some s
    else if c = '*' ∧ !s.wild ∧ s.hdr = [] ∧ s.name = [] then some { s with wild := true }
    else if c = ':' ∧ s.hdr ≠ [] ∧ !s.wild then
      (hn s.hdr).map fun n => { s with name := s.name ++ [n], hdr := [] }
    else if !s.hasName ∧ !s.wild then some { s with hdr := s.hdr ++ [c] }
    else none
  | .index =>
    if c = ']' then some { s with st := .name }
    else if isWs c then some s
    else some { s with idx := s.idx ++ [c] }
  | .part =>
    if c = '[' then some { s with st := .partIndex }
    else if isWs c then some s
    else some { s with part := s.part ++ [c] }
  | .partIndex =>
    if c = ']' then some { s with st := .name }
    else if isWs c then some s
    else some { s with pidx := s.pidx ++ [c] }

/-- The loop, `string.rs:362-425` -/
def run {N : Type} (hn : List Char → Option N) : S N → List Char → Option (S N)
  | s, [] => some s
  | s, c :: cs => (step hn s c).bind fun s => run hn s cs

/-- An index, `string.rs:439-452` and `:453-466` -/
def index? (wild : Bool) (v : List Char) : Option Int :=
  if v = [] then some (if !wild then -1 else 0)
  else if v = ['*'] then some 0
  else (parseI32 v).map fun n => if n = 0 then 1 else n

/-- After the loop, `string.rs:427-470` -/
def finish {N : Type} (hn : List Char → Option N) (s : S N) : Option (HVar N) := do
  let name ← if s.hdr ≠ [] then (hn s.hdr).map fun n => s.name ++ [n] else some s.name
  if name ≠ [] ∨ s.wild then
    let part ← hpart? s.part
    let h ← index? s.wild s.idx
    let p ← index? s.wild s.pidx
    return ⟨name, part, h, p⟩
  else none

/-- `parse_header_variable`, `string.rs:345-471` -/
def parseHeader {N : Type} (hn : List Char → Option N) (v : List Char) : Option (HVar N) :=
  (run hn (S.init N) v).bind (finish hn)

/-! ### Reading a variable -/

/-- `Envelope`, `src/lib.rs:155-166` -/
inductive Env where
  | «from» | to | byTimeAbsolute | byTimeRelative | byMode | byTrace | notify | orcpt | ret | envid
deriving DecidableEq

/-- `MessagePart`, `src/compiler/mod.rs:190-195` -/
inductive MPart where
  | textBody (convert : Bool)
  | htmlBody (convert : Bool)
  | contents
  | raw
deriving DecidableEq

/-- `VariableType`, `src/compiler/mod.rs:141-149`, without match variables -/
inductive Var (N : Type) where
  | «local» (id : Nat)
  | global (n : Name)
  | environment (n : Name)
  | envelope (e : Env)
  | header (h : HVar N)
  | part (p : MPart)
deriving DecidableEq

/-- The errors of `parse_variable`.  For `spaced`, `string.rs:290-328`. -/
inductive Err where
  | invalidEnvelope | invalidNamespace | invalidExpression
deriving DecidableEq

/-- `string.rs:297-311` -/
def env? (v : List Char) : Option Env :=
  if v = "from".toList then some .«from»
  else if v = "to".toList then some .to
  else if v = "by_time_absolute".toList then some .byTimeAbsolute
  else if v = "by_time_relative".toList then some .byTimeRelative
  else if v = "by_mode".toList then some .byMode
  else if v = "by_trace".toList then some .byTrace
  else if v = "notify".toList then some .notify
  else if v = "orcpt".toList then some .orcpt
  else if v = "ret".toList then some .ret
  else if v = "envid".toList then some .envid
  else none

/-- A name without namespace, `string.rs:280-287`, `:329-337` -/
def plain {N : Type} (st : Scope.St) (v : Name) : Option (Var N) :=
  if Scope.isGlobal st v then some (.global v)
  else (Scope.getLocal st v).map .«local»

/-- A name with a namespace, `string.rs:290-328`, `:338` -/
def spaced {N : Type} (hn : List Char → Option N) (ns x : List Char) : Except Err (Var N) :=
  if x = [] then .error .invalidNamespace
  else if ns = "global".toList ∨ ns = "t".toList then .ok (.global x)
  else if ns = "env".toList then .ok (.environment x)
  else if ns = "envelope".toList then
    match env? x with
    | some e => .ok (.envelope e)
    | none => .error .invalidEnvelope
  else if ns = "header".toList then
    match parseHeader hn x with
    | some h => .ok (.header h)
    | none => .error .invalidExpression
  else if ns = "body".toList then
    if x = "text".toList then .ok (.part (.textBody false))
    else if x = "html".toList then .ok (.part (.htmlBody false))
    else if x = "to_text".toList then .ok (.part (.textBody true))
    else if x = "to_html".toList then .ok (.part (.htmlBody true))
    else .error .invalidNamespace
  else if ns = "part".toList then
    if x = "text".toList then .ok (.part .contents)
    else if x = "raw".toList then .ok (.part .raw)
    else .error .invalidNamespace
  else .error .invalidNamespace

/-- `parse_variable`, `string.rs:275-343` -/
def parseVariable {N : Type} (hn : List Char → Option N) (st : Scope.St) (v : Name) (maybeNs : Bool) :
    Except Err (Option (Var N)) :=
  if !maybeNs then .ok (plain st v)
  else
    match splitDot (ascii v) with
    | none => .ok (plain st v)
    | some (ns, x) => (spaced hn ns x).map some

/-! ### Evaluation -/

/-- `Variable`, `src/runtime/mod.rs:38-43`; no floating point number occurs here.  An element of an array is never an
array itself. -/
inductive Scalar where
  | str (s : List Char)
  | int (n : Int)
deriving DecidableEq

/-- `Variable::default`.  See `runtime/mod.rs:55-59`. -/
def Scalar.empty : Scalar := .str []

/-- A variable's value.  For `shape`, `eval.rs:186-190`. -/
inductive Value where
  | one (v : Scalar)
  | array (l : List Scalar)
deriving DecidableEq

/-- mail-parser `Addr`.  For `Ext`, `eval.rs:403-423`. -/
structure Addr where
  name : Option (List Char)
  address : Option (List Char)
deriving DecidableEq

/-- mail-parser `ContentType`.  For `evalPart'`, `eval.rs:208-395`. -/
structure CType where
  type : List Char
  subtype : Option (List Char)
  attributes : List (List Char × List Char)
deriving DecidableEq

/-- mail-parser `HeaderValue`.  An `Address` is the list its `iter` goes through; `Received` is opaque.
For `evalPart'`, `eval.rs:208-395`. -/
inductive HValue (R : Type) where
  | text (t : List Char)
  | textList (l : List (List Char))
  | contentType (c : CType)
  | address (l : List Addr)
  | dateTime (timestamp : Int)
  | received (r : R)
  | empty
deriving DecidableEq

/-- mail-parser `Header`.  For `evalPart'`, `eval.rs:208-395`. -/
structure Header (N R : Type) where
  name : N
  value : HValue R
  offField : Nat
  offStart : Nat
  offEnd : Nat
deriving DecidableEq

/-- What `parse_id` returns.  For `Ext`, `eval.rs:403-423`. -/
inductive Ids where
  | one (t : List Char)
  | many (l : List (List Char))
  | none

/-- The parameters.  See `eval.rs:403-423`. -/
structure Ext (N R : Type) where
  /-- `HeaderName::as_str` -/
  nameText : N → List Char
  /-- `HeaderName::MessageId | HeaderName::ResentMessageId` -/
  isMessageId : N → Bool
  /-- `HeaderName::Other(_)` -/
  isOther : N → Bool
  parseAddress : List UInt8 → Option (List Addr)
  parseDate : List UInt8 → Option Int
  parseId : List UInt8 → Ids
  parseUnstructured : List UInt8 → Option (List Char)
  /-- `parse_address_local_part` and so on -/
  addressPart : AddrPart → List Char → Option (List Char)
  /-- `ReceivedPart::eval`, `eval.rs:403-423` -/
  received : RcvdPart → R → Option Scalar
  /-- `std::str::from_utf8` -/
  utf8 : List UInt8 → Option (List Char)
  /-- `String::from_utf8_lossy` -/
  lossy : List UInt8 → List Char
  /-- `str::trim` -/
  trim : List Char → List Char

/-- `sanitize_raw_header`, `eval.rs:472-490`, the loop; `sp` is `last_is_space`. -/
def sanitizeLoop : Bool → List UInt8 → List UInt8
  | _, [] => []
  | sp, c :: cs =>
    if Address.byteSpace c then sanitizeLoop true cs
    else if sp then 32 :: c :: sanitizeLoop false cs
    else c :: sanitizeLoop false cs

/-- `sanitize_raw_header`, `eval.rs:472-490`, before `into_string` -/
def sanitize (b : List UInt8) : List UInt8 := sanitizeLoop false b

/-- `slice.get(a..b)`.  For `evalPart'`, `eval.rs:208-395`. -/
def get (raw : List UInt8) (a b : Nat) : Option (List UInt8) :=
  if a ≤ b ∧ b ≤ raw.length then some ((raw.take b).drop a) else none

variable {N R : Type}

/-- `AddressPart::eval_strict`, `src/runtime/tests/test_address.rs:266-280` -/
def AddrPart.evalStrict (x : Ext N R) (p : AddrPart) (a : Addr) : Option (List Char) :=
  match p with
  | .name => a.name
  | .all => a.address
  | p =>
    match a.address with
    | some e => if e ≠ [] then x.addressPart p e else some e
    | none => none

/-- `Addr::to_text`, `eval.rs:431-443` -/
def Addr.toText (a : Addr) : Scalar :=
  match a.name, a.address with
  | some n, some e => .str (n ++ " <".toList ++ e ++ ['>'])
  | some n, none => .str n
  | none, some e => .str ('<' :: e ++ ['>'])
  | none, none => .empty

/-- The element a non-zero index asks for: `nth(i - 1)` from the front, or `rev().nth(|i| - 1)` from the back.
For `addresses`, `eval.rs:265-286`. -/
def nth {α : Type} (l : List α) (i : Int) : Option α :=
  if 0 < i then l[(i - 1).toNat]? else l.reverse[i.natAbs - 1]?

/-- `include_single_part`, `eval.rs:398-400` -/
def HVar.single (h : HVar N) : Bool := h.indexPart = -1 || h.indexPart = 0 || h.indexPart = 1

/-- `eval.rs:265-286` and `:295-319` -/
def addresses (x : Ext N R) (h : HVar N) (p : AddrPart) (l : List Addr) : List Scalar ⊕ Option Scalar :=
  if h.indexPart = 0 then
    .inl (l.map fun a => ((p.evalStrict x a).map .str).getD .empty)
  else .inr (((nth l h.indexPart).bind fun a => p.evalStrict x a).map .str)

/-- `eval_part`, `eval.rs:208-395`: the values added to the result, `none` for a panic.  The left side is what is pushed before a
`return`, the right side is what is pushed at the end. -/
def evalPart' (x : Ext N R) (h : HVar N) (hd : Header N R) (raw : List UInt8) : Option (List Scalar ⊕ Option Scalar) :=
  let body := get raw hd.offStart hd.offEnd
  match h.part with
  | .text =>
    some (match hd.value with
    | .text v => .inr (if h.single then some (.str v) else none)
    | .textList l =>
      if h.indexPart = 0 then .inl (l.map .str) else .inr ((nth l h.indexPart).map .str)
    | .contentType ct =>
      .inr (match ct.subtype with
      | some st => some (.str (ct.type ++ '/' :: st))
      | none => some (.str ct.type))
    | .address l =>
      if h.indexPart = 0 then .inl (l.map Addr.toText) else .inr ((nth l h.indexPart).map Addr.toText)
    | .dateTime _ => .inr (((body.bind x.utf8).map x.trim).map .str)
    | _ => .inr none)
  | .address p =>
    some (match hd.value with
    | .address l => addresses x h p l
    | .text _ =>
      match body.bind x.parseAddress with
      | some l => addresses x h p l
      | none => .inr none
    | _ => .inr none)
  | .date =>
    some (.inr (match hd.value with
    | .dateTime t => some (.int t)
    | _ => (body.bind x.parseDate).map .int))
  | .id =>
    some (if x.isMessageId hd.name then
      match hd.value with
      | .text t => .inr (some (.str t))
      | .textList l => .inl (l.map .str)
      | _ => .inr none
    else if x.isOther hd.name then
      match x.parseId (body.getD []) with
      | .one t => .inr (some (.str t))
      | .many l => .inl (l.map .str)
      | .none => .inr none
    else .inr none)
  | .raw => some (.inr (body.map fun b => .str (x.lossy (sanitize b))))
  | .rawName =>
    if hd.offStart = 0 then none
    else some (.inr ((get raw hd.offField (hd.offStart - 1)).map fun b => .str ((x.utf8 b).getD [])))
  | .«exists» => some (.inr (some (.int 1)))
  | .contentType p =>
    some (.inr (match hd.value with
    | .contentType ct =>
      match p with
      | .type => some (.str ct.type)
      | .subtype => ct.subtype.map .str
      | .attribute n => (ct.attributes.find? fun a => ascii a.1 = ascii n).map fun a => .str a.2
    | _ => none))
  | .received p =>
    some (.inr (match hd.value with
    | .received r => x.received p r
    | _ => none))

/-- `eval_part`: `result.push(var.unwrap_or_default())`, `eval.rs:394` -/
def evalPart (x : Ext N R) (h : HVar N) (hd : Header N R) (raw : List UInt8) : Option (List Scalar) :=
  (evalPart' x h hd raw).map fun
    | .inl l => l
    | .inr v => [v.getD .empty]

/-- The loop over all headers.  For `values`, `eval.rs:128-184`. -/
def evalAll (x : Ext N R) (h : HVar N) (raw : List UInt8) : List (Header N R) → Option (List Scalar)
  | [] => some []
  | hd :: hs => do
    let a ← evalPart x h hd raw
    let b ← evalAll x h raw hs
    return a ++ b

/-- A header for `header.*`, `eval.rs:158-183` -/
def evalAny (x : Ext N R) (h : HVar N) (hd : Header N R) (raw : List UInt8) : Option (List Scalar) :=
  match h.part with
  | .raw =>
    some (match get raw hd.offField hd.offEnd with
    | some b => [.str (x.lossy (sanitize b))]
    | none => [])
  | .text =>
    some (match hd.value with
    | .text t => [.str (x.nameText hd.name ++ ": ".toList ++ t)]
    | _ =>
      match x.parseUnstructured ((get raw hd.offStart hd.offEnd).getD []) with
      | some t => [.str (x.nameText hd.name ++ ": ".toList ++ t)]
      | none => [])
  | _ => evalPart x h hd raw

/-- `eval.rs:157-184` -/
def evalAnys (x : Ext N R) (h : HVar N) (raw : List UInt8) : List (Header N R) → Option (List Scalar)
  | [] => some []
  | hd :: hs => do
    let a ← evalAny x h hd raw
    let b ← evalAnys x h raw hs
    return a ++ b

/-- `eval.rs:128-184`: the values for the headers of the part -/
def values [DecidableEq N] (x : Ext N R) (h : HVar N) (hs : List (Header N R)) (raw : List UInt8) : Option (List Scalar) :=
  if h.name ≠ [] then
    let headers := hs.filter fun hd => hd.name ∈ h.name
    if h.indexHdr = 0 then evalAll x h raw headers
    else
      match nth headers h.indexHdr with
      | some hd => evalPart x h hd raw
      | none => some []
  else evalAnys x h raw hs

/-- `eval.rs:186-190` -/
def shape (h : HVar N) (result : List Scalar) : Option Value :=
  match result with
  | [] => none
  | [v] => if h.indexHdr ≠ 0 ∧ h.indexPart ≠ 0 then some (.one v) else some (.array [v])
  | l => some (.array l)

/-- `eval_header`, `eval.rs:127-191`; the outer `none` is a panic. -/
def evalHeader [DecidableEq N] (x : Ext N R) (h : HVar N) (hs : List (Header N R)) (raw : List UInt8) :
    Option (Option Value) :=
  (values x h hs raw).map (shape h)

end Sieve.Hvar
