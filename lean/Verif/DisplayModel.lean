import Verif.Prelude

/-!
# The texts of errors

Model of `Display` for `CompileError` and `RuntimeError`, `src/compiler/mod.rs:506-601`.

What is simplified: `{:?}` of strings and characters (`Debug`) is a parameter; a capability is given by the name it is displayed
with (C76).
-/

namespace Sieve.Display

/-- For `hex4`, `src/compiler/mod.rs:508-563`. -/
abbrev Text := List Char

/-- A constant text.  For `what`, `compiler/mod.rs:508-563`. -/
@[irreducible] def lit (s : String) : Text := s.toList

/-- `{:?}` of a string, without the opening quote, and of `char::from` of a byte.  For `what`, `compiler/mod.rs:508-563`. -/
structure Debug where
  str : Text → Text
  chr : UInt8 → Text

/-- The digit for a number below 16.  For `hex4`, `src/compiler/mod.rs:508-563`. -/
def digit (n : Nat) : Char := if n < 10 then Char.ofNat (48 + n) else Char.ofNat (87 + n)

/-- The digits of a number with base `b + 2`.  For `hex4`, `src/compiler/mod.rs:508-563`. -/
def digits (b n : Nat) : Text :=
  if n < b + 2 then [digit n] else digits b (n / (b + 2)) ++ [digit (n % (b + 2))]
termination_by n
decreasing_by exact Nat.div_lt_self (by omega) (by omega)

/-- `{}` of a `usize`.  For `what`, `compiler/mod.rs:508-563`. -/
def decimal (n : Nat) : Text := digits 8 n

/-- `{:04x}` of a `u32`. For `what`, `src/compiler/mod.rs:508-563`. -/
def hex4 (n : Nat) : Text := List.replicate (4 - (digits 14 n).length) '0' ++ digits 14 n

/-- For `what`, `compiler/mod.rs:508-563`. -/
def quoted (d : Debug) (s : Text) : Text := '"' :: d.str s

/-- `ErrorType`, `compiler/mod.rs:27-69`. -/
inductive Kind where
  | invalidCharacter (b : UInt8)
  | invalidNumber (s : Text)
  | invalidMatchVariable (n : Nat)
  | invalidUnicodeSequence (n : Nat)
  | invalidNamespace (s : Text)
  | invalidRegex (s : Text)
  | invalidExpression (s : Text)
  | invalidUtf8String
  | invalidHeaderName
  | invalidArguments
  | invalidAddress
  | invalidURI
  | invalidEnvelope (s : Text)
  | unterminatedString
  | unterminatedComment
  | unterminatedMultiline
  | unterminatedBlock
  | scriptTooLong
  | stringTooLong
  | variableTooLong
  | variableIsLocal (s : Text)
  | headerTooLong
  | expectedConstantString
  | unexpectedToken (expected found : Text)
  | unexpectedEOF
  | tooManyNestedBlocks
  | tooManyNestedTests
  | tooManyNestedForEveryParts
  | tooManyIncludes
  | labelAlreadyDefined (s : Text)
  | labelUndefined (s : Text)
  | breakOutsideLoop
  | continueOutsideLoop
  | unsupportedComparator (s : Text)
  | duplicatedParameter
  | undeclaredCapability (name : Text)
  | missingTag (s : Text)
deriving DecidableEq

/-- `CompileError`, `compiler/mod.rs:20-25`. -/
structure CompileError where
  line : Nat
  column : Nat
  kind : Kind
deriving DecidableEq

/-- The first `write!`, `compiler/mod.rs:508-563`. -/
def what (d : Debug) : Kind → Text
  | .invalidCharacter b => lit "Invalid character " ++ d.chr b
  | .invalidNumber s => lit "Invalid number " ++ quoted d s
  | .invalidMatchVariable n => lit "Match variable " ++ decimal n ++ lit " out of range"
  | .invalidUnicodeSequence n => lit "Invalid Unicode sequence " ++ hex4 n
  | .invalidNamespace s => lit "Invalid namespace " ++ quoted d s
  | .invalidRegex s => lit "Invalid regular expression " ++ quoted d s
  | .invalidExpression s => lit "Invalid expression " ++ s
  | .invalidUtf8String => lit "Invalid UTF-8 string"
  | .invalidHeaderName => lit "Invalid header name"
  | .invalidArguments => lit "Invalid Arguments"
  | .invalidAddress => lit "Invalid Address"
  | .invalidURI => lit "Invalid URI"
  | .invalidEnvelope s => lit "Invalid envelope " ++ quoted d s
  | .unterminatedString => lit "Unterminated string"
  | .unterminatedComment => lit "Unterminated comment"
  | .unterminatedMultiline => lit "Unterminated multi-line string"
  | .unterminatedBlock => lit "Unterminated block"
  | .scriptTooLong => lit "Sieve script is too large"
  | .stringTooLong => lit "String is too long"
  | .variableTooLong => lit "Variable name is too long"
  | .variableIsLocal s => lit "Variable " ++ quoted d s ++ lit " was already defined as local"
  | .headerTooLong => lit "Header value is too long"
  | .expectedConstantString => lit "Expected a constant string"
  | .unexpectedToken e f => lit "Expected token " ++ quoted d e ++ lit " but found " ++ quoted d f
  | .unexpectedEOF => lit "Unexpected end of file"
  | .tooManyNestedBlocks => lit "Too many nested blocks"
  | .tooManyNestedTests => lit "Too many nested tests"
  | .tooManyNestedForEveryParts => lit "Too many nested foreverypart blocks"
  | .tooManyIncludes => lit "Too many includes"
  | .labelAlreadyDefined s => lit "Label " ++ quoted d s ++ lit " already defined"
  | .labelUndefined s => lit "Label " ++ quoted d s ++ lit " does not exist"
  | .breakOutsideLoop => lit "Break used outside of foreverypart loop"
  | .continueOutsideLoop => lit "Continue used outside of while loop"
  | .unsupportedComparator s => lit "Comparator " ++ quoted d s ++ lit " is not supported"
  | .duplicatedParameter => lit "Duplicated argument"
  | .undeclaredCapability s => lit "Undeclared capability '" ++ s ++ lit "'"
  | .missingTag s => lit "Missing tag " ++ quoted d s

/-- `CompileError::fmt`, `compiler/mod.rs:506-571`. -/
def CompileError.text (d : Debug) (e : CompileError) : Text :=
  what d e.kind ++ lit " at line " ++ decimal e.line ++ lit ", column " ++ decimal e.column ++ lit "."

/-- `RuntimeError`, `runtime/mod.rs:46-53`, with `Invalid`, `grammar/mod.rs:179-183`. -/
inductive RuntimeError where
  | tooManyIncludes
  | invalidInstruction (name : Text) (line column : Nat)
  | scriptErrorMessage (s : Text)
  | capabilityNotAllowed (name : Text)
  | capabilityNotSupported (name : Text)
  | cpuLimitReached
deriving DecidableEq

/-- `RuntimeError::fmt`, `compiler/mod.rs:573-601`.  `line_pos` is the column, and comes first. -/
def RuntimeError.text (d : Debug) : RuntimeError → Text
  | .tooManyIncludes => []
  | .invalidInstruction name line column =>
    lit "Script executed invalid instruction " ++ quoted d name ++ lit " at line " ++ decimal column ++
      lit ", column " ++ decimal line ++ lit "."
  | .scriptErrorMessage s => lit "Script reported error " ++ quoted d s ++ lit "."
  | .capabilityNotAllowed name => lit "Capability '" ++ name ++ lit "' has been disabled."
  | .capabilityNotSupported name => lit "Capability '" ++ name ++ lit "' not supported."
  | .cpuLimitReached => lit "Script exceeded the maximum number of instructions allowed to execute."

end Sieve.Display
