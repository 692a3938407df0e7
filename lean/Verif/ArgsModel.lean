import Verif.WordModel

/-!
# Arguments of commands and tests

Model of how the compiler reads the arguments of a command or a test: the readers of strings, string lists and numbers
(`src/compiler/grammar/mod.rs:263-430`, `src/compiler/lexer/tokenizer.rs:265-307`), `validate_argument`
(`grammar/mod.rs:446-478`) and the loops of `parse_fileinto`, `parse_redirect`, `parse_test_header` and so on
(`src/compiler/grammar/actions/*.rs`, `src/compiler/grammar/tests/*.rs`).

What is abstracted.

* The loops of the code differ only in the tags they know and in the positional arguments they end with; here there is
  one loop, and each command or test is an entry that says which ones (`ArgsTable`).  The result lists the tagged
  arguments in the order in which they stand instead of filling the fields of a structure.
* Error values are not distinguished: `none` is `Err(_)`.
* A string with variables stays as it is (`Val.var`); whether `tokenize_string` accepts it, whether a text is a regular
  expression, a header name, a URI, a sender or an expression, and whether `register_variable` accepts a name are
  parameters.  That these depend on the variables and captures known at that place is left out here, see `ScopeModel`.
-/

namespace Sieve.Args

variable {F : Type}

/-- The tokens of the lexer with the words of the language.  For `readLit`, `grammar/mod.rs:365-381`. -/
abbrev Tok (F : Type) := Lex.Token Word F

/-- `Value`, `src/compiler/mod.rs:105-111`, before variables are resolved. -/
inductive Val (F : Type) where
  | text (s : List UInt8)
  | num (n : Lex.Num F)
  /-- `StringVariable`, given to `tokenize_string` -/
  | var (s : List UInt8)
deriving DecidableEq

/-- Parameters.  See `src/compiler/grammar/actions/action_notify.rs:70`. -/
structure Ext (F : Type) where
  /-- `Number::to_string` -/
  showNum : Lex.Num F → List UInt8
  /-- `tokenize_string` succeeds -/
  varOk : List UInt8 → Bool
  /-- `HeaderName::parse` succeeds -/
  headerOk : List UInt8 → Bool
  /-- `fancy_regex::Regex::new` succeeds -/
  regexOk : List UInt8 → Bool
  /-- `validate_from` and not empty, `src/compiler/grammar/actions/action_notify.rs:70` -/
  fromOk : List UInt8 → Bool
  /-- `validate_uri` succeeds -/
  uriOk : List UInt8 → Bool
  /-- `register_variable` succeeds, `src/compiler/grammar/actions/action_set.rs:159` -/
  nameOk : List UInt8 → Bool
  /-- `ExpressionParser::parse` succeeds, `test.rs:566-591` -/
  exprOk : List UInt8 → Bool
  /-- `str::parse::<i64>` for the string of a time zone, `test_date.rs` -/
  parseInt : List UInt8 → Option Int
  /-- `f64 as i64` -/
  toInt : F → Int
  /-- `compiler.max_header_size` -/
  maxHeader : Nat
  /-- `compiler.no_capability_check` -/
  noCheck : Bool
  /-- `compiler.max_includes` -/
  maxIncludes : Nat

/-! ## Strings, lists and numbers -/

/-- `parse_string_token`, `grammar/mod.rs:365-381`. -/
def readLit (x : Ext F) : Tok F → Option (Val F)
  | .string s => some (.text s)
  | .stringNumber n => some (.num n)
  | .stringVar s => if x.varOk s then some (.var s) else none
  | _ => none

/-- The text of a constant string: `into_string`, `src/compiler/lexer/mod.rs:50-55`. -/
def constText (x : Ext F) : Tok F → Option (List UInt8)
  | .string s => some s
  | .stringNumber n => some (x.showNum n)
  | _ => none

/-- `parse_string_list(false)`, `grammar/mod.rs:403-429`, after the opening bracket; `any` says whether a string has been
read. -/
def readList (x : Ext F) (any : Bool) : List (Tok F) → Option (List (Val F) × List (Tok F))
  | [] => none
  | .comma :: ts => readList x any ts
  | .bracketClose :: ts => if any then some ([], ts) else none
  | t :: ts =>
    match readLit x t with
    | some v =>
      match readList x true ts with
      | some (vs, r) => some (v :: vs, r)
      | none => none
    | none => none

/-- `parse_string`, `grammar/mod.rs:324-346`. -/
def readString (x : Ext F) : List (Tok F) → Option (Val F × List (Tok F))
  | [] => none
  | .bracketOpen :: ts =>
    match readList x false ts with
    | some ([v], r) => some (v, r)
    | _ => none
  | t :: ts =>
    match readLit x t with
    | some v => some (v, ts)
    | none => none

/-- `parse_strings(false)` and `parse_strings_token`, `grammar/mod.rs:347-363, 383-401`. -/
def readStrings (x : Ext F) : List (Tok F) → Option (List (Val F) × List (Tok F))
  | [] => none
  | .bracketOpen :: ts => readList x false ts
  | t :: ts =>
    match readLit x t with
    | some v => some ([v], ts)
    | none => none

/-- The list of `parse_static_strings`, `grammar/mod.rs:304-316`, and of the names of `envelope`,
`src/compiler/grammar/tests/test_envelope.rs:122-144`. -/
def readConsts (x : Ext F) (any : Bool) : List (Tok F) → Option (List (List UInt8) × List (Tok F))
  | [] => none
  | .comma :: ts => readConsts x any ts
  | .bracketClose :: ts => if any then some ([], ts) else none
  | t :: ts =>
    match constText x t with
    | some s =>
      match readConsts x true ts with
      | some (ss, r) => some (s :: ss, r)
      | none => none
    | none => none

/-- `parse_static_strings`, `grammar/mod.rs:301-322`. -/
def readStatics (x : Ext F) : List (Tok F) → Option (List (List UInt8) × List (Tok F))
  | [] => none
  | .bracketOpen :: ts => readConsts x false ts
  | t :: ts =>
    match constText x t with
    | some s => some ([s], ts)
    | none => none

/-- The list of `expect_static_string`, `src/compiler/lexer/tokenizer.rs:274-294`: the last string is kept, commas are not allowed. -/
def readLast (x : Ext F) : Option (List UInt8) → List (Tok F) → Option (List UInt8 × List (Tok F))
  | _, [] => none
  | got, .bracketClose :: ts => got.map fun s => (s, ts)
  | _, t :: ts =>
    match constText x t with
    | some s => readLast x (some s) ts
    | none => none

/-- `expect_static_string`, `src/compiler/lexer/tokenizer.rs:274-294`. -/
def readStatic (x : Ext F) : List (Tok F) → Option (List UInt8 × List (Tok F))
  | [] => none
  | .bracketOpen :: ts => readLast x none ts
  | t :: ts =>
    match constText x t with
    | some s => some (s, ts)
    | none => none

/-- `expect_number`, `src/compiler/lexer/tokenizer.rs:296-307`. -/
def readNumber (max : Nat) : List (Tok F) → Option (Nat × List (Tok F))
  | .number n :: ts => if n < max then some (n, ts) else none
  | _ => none

/-- `lookup_relational`, `grammar/mod.rs:572-582`. -/
def relational : List String := ["gt", "ge", "lt", "le", "eq", "ne"]

/-- The comparison of `:value` and `:count`: `parse_match_type`, `grammar/mod.rs:276-289`. -/
def readRel (x : Ext F) : List (Tok F) → Option (List UInt8 × List (Tok F))
  | [] => none
  | t :: ts =>
    match constText x t with
    | some s => if relational.any (bytes · = s) then some (s, ts) else none
    | none => none

/-- `parse_timezone`, `src/compiler/grammar/tests/test_date.rs:303-319`: the offset in seconds.  Division truncates towards zero. -/
def readZone (x : Ext F) : List (Tok F) → Option (Int × List (Tok F))
  | [] => none
  | t :: ts =>
    let z? : Option Int := match t with
      | .string s => some ((x.parseInt s).getD (2 ^ 63 - 1))
      | .stringNumber (.int n) => some n
      | .stringNumber (.flt f) => some (x.toInt f)
      | _ => none
    match z? with
    | some z =>
      if 0 ≤ z ∧ z ≤ 1400 then some (z.tdiv 100 * 3600 + z.tmod 100 * 60, ts)
      else if -1200 ≤ z ∧ z ≤ -1 then some (z.tdiv 100 * 3600 - (-z).tmod 100 * 60, ts)
      else none
    | none => none

/-! ## Tagged and positional arguments -/

/-- What follows a tag.  See `src/compiler/grammar/actions/action_notify.rs:66-75`. -/
inductive Kind where
  /-- nothing -/
  | flag
  /-- `parse_string` -/
  | str
  /-- the address of `notify :from`, `src/compiler/grammar/actions/action_notify.rs:66-75` -/
  | sender
  /-- the header name of `duplicate :header`, `src/compiler/grammar/tests/test_duplicate.rs:68-80` -/
  | header
  /-- `parse_strings(false)` -/
  | strs
  /-- `expect_static_string` and one of these words, in any case, or any text if there are none -/
  | static (choice : List String)
  /-- `:notify` of `redirect`, `src/compiler/grammar/actions/action_redirect.rs:217-250` -/
  | notifyItems
  /-- `expect_number(max)` -/
  | number (max : Nat)
  /-- the comparison of `:value` and `:count` -/
  | rel
  /-- `parse_timezone` -/
  | zone
  /-- the two strings of `:replace`, `src/compiler/grammar/actions/action_set.rs:112-119` -/
  | pair

/-- An argument that has been read.  For `tagLoop`, `src/compiler/grammar/tests/test_duplicate.rs:57-98`. -/
inductive Arg (F : Type) where
  | flag
  | val (v : Val F)
  | vals (vs : List (Val F))
  | text (s : List UInt8)
  | texts (ss : List (List UInt8))
  | num (n : Nat)
  | zone (z : Int)
  | pair (a b : Val F)
deriving DecidableEq

/-- ASCII lower case, for `eq_ignore_ascii_case`.  For `notifyOk`, `src/compiler/grammar/actions/action_redirect.rs:224-249`. -/
def lower (s : List UInt8) : List UInt8 := s.map fun c => if 65 ≤ c && c ≤ 90 then c + 32 else c

/-- `str::trim`, for ASCII white space.  For `notifyOk`, `src/compiler/grammar/actions/action_redirect.rs:224-249`. -/
def trim (s : List UInt8) : List UInt8 :=
  let ws : UInt8 → Bool := fun c => c = 32 || (9 ≤ c && c ≤ 13)
  ((s.dropWhile ws).reverse.dropWhile ws).reverse

/-- `str::split(',')`.  For `notifyOk`, `src/compiler/grammar/actions/action_redirect.rs:224-249`. -/
def splitComma : List UInt8 → List (List UInt8)
  | [] => [[]]
  | c :: s =>
    if c = 44 then [] :: splitComma s
    else match splitComma s with
      | p :: ps => (c :: p) :: ps
      | [] => [[c]]

/-- The value of `:notify` is accepted, `src/compiler/grammar/actions/action_redirect.rs:224-249`. -/
def notifyOk (s : List UInt8) : Bool :=
  lower s = bytes "never" || (splitComma s).any fun i => ["success", "failure", "delay"].any (bytes · = lower (trim i))

/-- `if let Value::Text(name) = &v { if !ok(name) { return Err } }`.  For `tagLoop`, `src/compiler/grammar/tests/test_duplicate.rs:57-98`. -/
def textOk (ok : List UInt8 → Bool) : Val F → Bool
  | .text s => ok s
  | _ => true

/-- Reading what follows a tag.  For `tagLoop`, `src/compiler/grammar/tests/test_duplicate.rs:57-98`. -/
def readKind (x : Ext F) : Kind → List (Tok F) → Option (Arg F × List (Tok F))
  | .flag, ts => some (.flag, ts)
  | .str, ts => (readString x ts).map fun p => (.val p.1, p.2)
  | .sender, ts =>
    (readString x ts).bind fun p => if textOk x.fromOk p.1 then some (.val p.1, p.2) else none
  | .header, ts =>
    (readString x ts).bind fun p => if textOk x.headerOk p.1 then some (.val p.1, p.2) else none
  | .strs, ts => (readStrings x ts).map fun p => (.vals p.1, p.2)
  | .static choice, ts =>
    (readStatic x ts).bind fun p =>
      if choice.isEmpty || choice.any (bytes · = lower p.1) then some (.text p.1, p.2) else none
  | .notifyItems, ts => (readStatic x ts).bind fun p => if notifyOk p.1 then some (.text p.1, p.2) else none
  | .number max, ts => (readNumber max ts).map fun p => (.num p.1, p.2)
  | .rel, ts => (readRel x ts).map fun p => (.text p.1, p.2)
  | .zone, ts => (readZone x ts).map fun p => (.zone p.1, p.2)
  | .pair, a :: b :: ts =>
    match readLit x a, readLit x b with
    | some v, some w => some (.pair v w, ts)
    | _, _ => none
  | .pair, _ => none

/-- A positional argument.  See `src/compiler/grammar/actions/action_editheader.rs:88-98`. -/
inductive Pos where
  /-- `parse_string_token`; with `header` it must be a header name if it is constant -/
  | lit (header : Bool)
  /-- the value of `addheader`, `src/compiler/grammar/actions/action_editheader.rs:88-98` -/
  | value
  /-- the method of `notify`, `src/compiler/grammar/actions/action_notify.rs:132-141` -/
  | uri
  /-- `parse_string` -/
  | str
  /-- `parse_strings_token`; with `header` the constant ones must be header names -/
  | strs (header : Bool)
  /-- the keys, after which `validate_match` is called -/
  | keys
  /-- `parse_static_strings` -/
  | statics
  /-- a constant string: `parse_variable_name`, `src/compiler/grammar/actions/action_set.rs:152-167` -/
  | name
  /-- a constant string that is not checked: the name of `environment`, `test_environment.rs:54-62` -/
  | const
  /-- one of these words in any case: the date part, `src/compiler/grammar/tests/test_date.rs:196-205` -/
  | part (words : List String)
  /-- the names of `envelope`, `src/compiler/grammar/tests/test_envelope.rs:101-177` -/
  | envelope
  /-- `parse_expr`, `test.rs:566-591` -/
  | expr

/-- The names of `lookup_envelope`, `src/compiler/grammar/tests/test_envelope.rs:224-238`, with the capability that each needs,
`src/compiler/grammar/tests/test_envelope.rs:149-175`. -/
def envelopeNames : List (String × Option Cap) := [
  ("from", none), ("to", none),
  ("bytimeabsolute", some .EnvelopeDeliverBy), ("bytimerelative", some .EnvelopeDeliverBy),
  ("bymode", some .EnvelopeDeliverBy), ("bytrace", some .EnvelopeDeliverBy),
  ("notify", some .EnvelopeDsn), ("orcpt", some .EnvelopeDsn), ("ret", some .EnvelopeDsn), ("envid", some .EnvelopeDsn)]

/-- See `compiler/grammar/tests/test_envelope.rs:224-238`. -/
def envelopeOf (s : List UInt8) : Option (String × Option Cap) := envelopeNames.find? (fun p => bytes p.1 = lower s)

/-- `if let Some(c) = capability { has_capability(c) }`.  For `validate`, `grammar/mod.rs:446-478`. -/
def hasAll (has : Cap → Bool) : Option Cap → Bool
  | none => true
  | some c => has c

/-- Reading a positional argument; the first token is the one the loop has taken.  See `compiler/grammar/mod.rs:324-430`. -/
def readPos (x : Ext F) (has : Cap → Bool) : Pos → List (Tok F) → Option (Arg F × List (Tok F))
  | _, [] => none
  | .lit header, t :: ts =>
    (readLit x t).bind fun v => if !header || textOk x.headerOk v then some (.val v, ts) else none
  | .value, t :: ts =>
    (readLit x t).bind fun v => if textOk (·.length ≤ x.maxHeader) v then some (.val v, ts) else none
  | .uri, t :: ts =>
    if (match constText x t with | some s => x.uriOk s | none => true) then (readLit x t).map fun v => (.val v, ts)
    else none
  | .str, ts => (readString x ts).map fun p => (.val p.1, p.2)
  | .strs header, ts =>
    (readStrings x ts).bind fun p => if !header || p.1.all (textOk x.headerOk) then some (.vals p.1, p.2) else none
  | .keys, ts => (readStrings x ts).map fun p => (.vals p.1, p.2)
  | .statics, ts => (readStatics x ts).map fun p => (.texts p.1, p.2)
  | .name, t :: ts => (constText x t).bind fun s => if x.nameOk s then some (.text s, ts) else none
  | .const, t :: ts => (constText x t).map fun s => (.text s, ts)
  | .part words, t :: ts =>
    (constText x t).bind fun s => if words.any (bytes · = lower s) then some (.text s, ts) else none
  | .envelope, ts =>
    (readStatics x ts).bind fun p =>
      if p.1.all (fun s => match envelopeOf s with | some e => hasAll has e.2 | none => false) then some (.texts p.1, p.2)
      else none
  | .expr, .string s :: ts => if x.exprOk s then some (.text s, ts) else none
  | .expr, .stringNumber n :: ts => if x.exprOk (x.showNum n) then some (.text (x.showNum n), ts) else none
  | .expr, .stringVar s :: ts => if x.exprOk s then some (.text s, ts) else none
  | .expr, _ :: _ => none

/-- A tag of a command: the number given to `validate_argument`, the capability, and what follows.
For `tagLoop`, `src/compiler/grammar/tests/test_duplicate.rs:57-98`. -/
structure Row where
  slot : Nat
  cap : Option Cap
  kind : Kind

/-- What has been read.  For `tagLoop`, `src/compiler/grammar/tests/test_duplicate.rs:57-98`. -/
structure Got (F : Type) where
  tags : List (Word × Arg F) := []
  pos : List (Arg F) := []
deriving DecidableEq

/-- `MAX_PARAMS`, `grammar/instruction.rs:111`. -/
def maxParams : Nat := 11

/-- `reset_param_check`, `grammar/mod.rs:441-443`. -/
def noParams : List Bool := List.replicate maxParams false

/-- `validate_argument`, `grammar/mod.rs:446-478`: the new `param_check`.  A number beyond the array is not checked
(it panics in tests). -/
def validate (has : Cap → Bool) (chk : List Bool) (slot : Nat) (cap : Option Cap) : Option (List Bool) :=
  if 0 < slot ∧ chk[slot - 1]? = some true then none
  else if hasAll has cap then some (if 0 < slot then chk.set (slot - 1) true else chk)
  else none

/-- The loop over the arguments of a command with positional arguments `ps`: a tag that the command knows is checked and
read with what follows it; anything else is the next positional argument, and the last one ends the loop.  Each round
takes at least one token, so the number of tokens is enough fuel.  See `compiler/grammar/tests/test_header.rs:44-173`. -/
def loop (x : Ext F) (has : Cap → Bool) (tag : Word → Option Row) :
    Nat → List Bool → List Pos → Got F → List (Tok F) → Option (Got F × List (Tok F))
  | 0, _, _, _, _ => none
  | _ + 1, _, [], _, _ => none
  | n + 1, chk, p :: ps, g, ts =>
    let positional : Option (Got F × List (Tok F)) :=
      (readPos x has p ts).bind fun a =>
        let g' : Got F := { g with pos := g.pos ++ [a.1] }
        if ps.isEmpty then some (g', a.2) else loop x has tag n chk ps g' a.2
    match ts with
    | .tag w :: ts' =>
      match tag w with
      | some r =>
        (validate has chk r.slot r.cap).bind fun chk' =>
          (readKind x r.kind ts').bind fun a => loop x has tag n chk' (p :: ps) { g with tags := g.tags ++ [(w, a.1)] } a.2
      | none => positional
    | _ => positional

/-- The loop of `duplicate`, `src/compiler/grammar/tests/test_duplicate.rs:57-98`: it only knows tags and stops before anything else. -/
def tagLoop (x : Ext F) (has : Cap → Bool) (tag : Word → Option Row) :
    Nat → List Bool → Got F → List (Tok F) → Option (Got F × List (Tok F))
  | 0, _, g, ts => some (g, ts)
  | n + 1, chk, g, ts =>
    match ts with
    | .tag w :: ts' =>
      match tag w with
      | some r =>
        (validate has chk r.slot r.cap).bind fun chk' =>
          (readKind x r.kind ts').bind fun a => tagLoop x has tag n chk' { g with tags := g.tags ++ [(w, a.1)] } a.2
      | none => some (g, ts)
    | _ => some (g, ts)

/-- `Some(Ok(Token::StringConstant(_) | Token::StringVariable(_) | Token::BracketOpen))`.
See `compiler/grammar/mod.rs:365-401`. -/
def startsString : List (Tok F) → Bool
  | .string _ :: _ | .stringNumber _ :: _ | .stringVar _ :: _ | .bracketOpen :: _ => true
  | _ => false

/-- See `compiler/grammar/mod.rs:446-478`. -/
def Got.hasTag (g : Got F) (w : Word) : Bool := g.tags.any (·.1 = w)

end Sieve.Args
