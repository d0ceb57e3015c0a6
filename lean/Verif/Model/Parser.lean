import Verif.Model.ParserCore
import Verif.Model.Path
/-!
The grammar methods of `Parser`: protox-parse/src/parse/mod.rs, and protox-parse/src/case.rs.
Every method is a program over the primitive operations (`Prog`, Model/ParserCore.lean).  Loops carry a counter
`fuel`; nesting of message bodies carries a depth counter.
-/
namespace Verif.Parse
open Prog

/-- `Token::SYNTAX` etc. (lex/mod.rs:83-120). -/
abbrev kw (s : Bytes) : Token := .ident s

/-- `is_valid_ident` (case.rs:1-7). -/
def isValidIdent (s : Bytes) : Bool :=
  match s with
  | [] => false
  | b :: r => isAlpha b && r.all (fun ch => isAlnum ch || ch == 95)

/-- `is_valid_group_name` (case.rs:9-15). -/
def isValidGroupName (s : Bytes) : Bool :=
  match s with
  | [] => false
  | b :: r => isUpper b && r.all (fun ch => isAlnum ch || ch == 95)

/-- `is_valid_import` (parse/mod.rs:1359-1368). `Path::is_absolute` on Unix: starts with `/`. -/
def isValidImport (s : Bytes) : Bool :=
  (splitAt 47 s).all (fun c => !(c.isEmpty || c.contains 92 || c == b!"." || c == b!"..")) &&
    !(s.head? == some 47)

/-- `Token::Dot | Token::Ident(_)`, e.g. parse/mod.rs:284. -/
def Token.startsType : Token → Bool
  | .dot | .ident _ => true
  | _ => false

/-- One round of a Rust loop: continue with a new state or break with a value. -/
inductive Step (σ β : Type) where
  | next (s : σ)
  | done (b : β)

/-- A Rust `loop` with a counter. -/
def loopM {σ β : Type} (step : σ → Prog (Step σ β)) : Nat → σ → Prog β
  | 0, _ => .outOfFuel
  | n + 1, s => do
    match ← step s with
    | .next s' => loopM step n s'
    | .done b => pure b

/-! The literal texts handed to `unexpected_token`. -/
namespace Says
/-- parse/mod.rs:1049. -/
def ident : Expect := .text b!"an identifier"
/-- parse/mod.rs:1077. -/
def integer : Expect := .text b!"an integer"
/-- parse/mod.rs:1107. -/
def stringLit : Expect := .text b!"a string literal"
/-- parse/mod.rs:1015. -/
def typeName : Expect := .text b!"a type name"
/-- parse/mod.rs:976. -/
def optionName : Expect := .text b!"an identifier or '('"
/-- parse/mod.rs:906. -/
def equalsOrDot : Expect := .text b!"'=' or '.'"
/-- parse/mod.rs:934. -/
def numeric : Expect := .text b!"a numeric literal"
/-- parse/mod.rs:961. -/
def constant : Expect := .text b!"a constant"
/-- parse/mod.rs:867. -/
def commaOrBracket : Expect := .text b!"',' or ']'"
/-- parse/mod.rs:846. -/
def rangeEnd : Expect := .text b!"an integer or 'max'"
/-- parse/mod.rs:850. -/
def rangeTo : Expect := .text b!"'to', ',' or ';'"
/-- parse/mod.rs:794. -/
def commaOrSemi : Expect := .text b!"',' or ';'"
/-- parse/mod.rs:755. -/
def reserved : Expect := .text b!"a positive integer or string"
/-- parse/mod.rs:724. -/
def fieldType : Expect := .text b!"a field type"
/-- parse/mod.rs:324. -/
def field : Expect := .text b!"a message field"
/-- parse/mod.rs:627. -/
def enumItem : Expect := .text b!"an identifier, '}', 'reserved' or 'option'"
/-- parse/mod.rs:689. -/
def oneofItem : Expect := .text b!"a message field, option or '}'"
/-- parse/mod.rs:476. -/
def extendItem : Expect := .text b!"a message field, '}' or ';'"
/-- parse/mod.rs:290-292. -/
def bodyItem : Expect := .text b!"a message field, oneof, reserved range, enum, message, option or '}'"
/-- parse/mod.rs:539, 551. -/
def streaming : Expect := .text b!"'stream' or a type name"
/-- parse/mod.rs:576. -/
def methodItem : Expect := .text b!"'option', '}' or ';'"
/-- parse/mod.rs:580. -/
def methodEnd : Expect := .text b!"';' or '{'"
/-- parse/mod.rs:514. -/
def serviceItem : Expect := .text b!"'rpc', '}', 'option' or ';'"
/-- parse/mod.rs:220. -/
def importKind : Expect := .text b!"a string literal, 'public' or 'weak'"
/-- parse/mod.rs:157. -/
def syntaxString : Expect := .text b!"a string"
/-- parse/mod.rs:181-183. -/
def statement : Expect := .text b!"'enum', 'extend', 'import', 'message', 'option', 'service', 'package' or ';'"
end Says

/-- `unexpected_token` (parse/mod.rs:1275-1290) with `eof` (parse/mod.rs:1292-1296). -/
def unexpected {α : Type} (expected : Expect) : Prog α := do
  match ← peekSkip with
  | some (found, span) => do addError (.unexpectedToken expected found span); failed
  | none => do addError (.unexpectedEof expected); failed

/-- `expect_eq` (parse/mod.rs:1138-1143). -/
def expectEq (t : Token) : Prog Span := do
  match ← peekSkip with
  | some (tok, _) => if tok = t then bump else unexpected (.oneOf [.token t])
  | none => unexpected (.oneOf [.token t])

/-- `parse_ident` with `expect` (parse/mod.rs:1043-1051, 1145-1158). -/
def parseIdent : Prog Ast.Ident := do
  match ← peekSkip with
  | some (tok, span) =>
    match tok with
    | .ident v => do
      let _ ← bump
      pure ⟨v, span⟩
    | _ => unexpected Says.ident
  | none => unexpected Says.ident

/-- `parse_int` (parse/mod.rs:1053-1079). -/
def parseInt : Prog Ast.Int' := do
  let start : Option Span ← (do
    match ← peekSkip with
    | some (tok, span) =>
      if tok = .minus then do
        let _ ← bump
        pure (some span)
      else pure none
    | none => pure none)
  match ← peekSkip with
  | some (tok, stop) =>
    match tok with
    | .int v => do
      let _ ← bump
      match start with
      | none => pure ⟨false, v, stop⟩
      | some st => pure ⟨true, v, joinSpan st stop⟩
    | _ => unexpected Says.integer
  | none => unexpected Says.integer

/-- The `while let` of `parse_string` (parse/mod.rs:1110-1114). -/
def stringStep (acc : Ast.Str) : Prog (Step Ast.Str Ast.Str) := do
  match ← peekSkip with
  | some (tok, span) =>
    match tok with
    | .string v => do
      let _ ← bump
      pure (.next ⟨acc.value ++ v, joinSpan acc.span span⟩)
    | _ => pure (.done acc)
  | none => pure (.done acc)

/-- `parse_string` (parse/mod.rs:1098-1117). -/
def parseString (fuel : Nat) : Prog Ast.Str := do
  match ← peekSkip with
  | some (tok, span) =>
    match tok with
    | .string v => do
      let _ ← bump
      loopM stringStep fuel ⟨v, span⟩
    | _ => unexpected Says.stringLit
  | none => unexpected Says.stringLit

/-- `parse_utf8_string` (parse/mod.rs:1081-1096) with `into_utf8` (ast/mod.rs:356-365). On invalid UTF-8 the
code goes on with `String::from_utf8_lossy`; here the bytes are kept (the result is discarded because of the
recorded error). -/
def parseUtf8String (fuel : Nat) : Prog (Bytes × Span) := do
  let s ← parseString fuel
  if utf8Valid s.value then pure (s.value, s.span)
  else do
    addError (.invalidUtf8String s.span)
    pure (s.value, s.span)

/-- The loop of `parse_full_ident` (parse/mod.rs:1026-1040). -/
def fullIdentStep (terms : List Expected) (acc : List Ast.Ident) :
    Prog (Step (List Ast.Ident) Ast.FullIdent) := do
  match ← peekSkip with
  | some (tok, _) =>
    if tok = .dot then do
      let _ ← bump
      let i ← parseIdent
      pure (.next (acc ++ [i]))
    else if terms.any (·.matches tok) then pure (.done ⟨acc⟩)
    else unexpected (.oneOf (.token .dot :: terms))
  | none => unexpected (.oneOf (.token .dot :: terms))

/-- `parse_full_ident` (parse/mod.rs:1023-1041). -/
def parseFullIdent (fuel : Nat) (terms : List Expected) : Prog Ast.FullIdent := do
  let i ← parseIdent
  loopM (fullIdentStep terms) fuel [i]

/-- `parse_type_name` (parse/mod.rs:1008-1021). -/
def parseTypeName (fuel : Nat) (terms : List Expected) : Prog Ast.TypeName := do
  let dot : Option Span ← (do
    match ← peek with
    | some (tok, span) =>
      if tok = .dot then do
        let _ ← bump
        pure (some span)
      else if Token.startsType tok then pure none
      else unexpected Says.typeName
    | none => unexpected Says.typeName)
  let name ← parseFullIdent fuel terms
  pure ⟨dot, name⟩

/-- One round of `parse_text_format_message` (parse/mod.rs:987-1002). The brace counter is a `u32` in the
code; it cannot overflow on a source below 2^31 bytes. -/
def textFormatStep [FloatFmt] (st : Bytes × Nat) : Prog (Step (Bytes × Nat) Bytes) := do
  match ← peek with
  | some (tok, _) =>
    if tok = .rightBrace ∧ st.2 = 0 then pure (.done st.1)
    else
      let level := if tok = .leftBrace then st.2 + 1 else if tok = .rightBrace then st.2 - 1 else st.2
      let text := (if st.1 = [] then st.1 else st.1 ++ [32]) ++ tok.display
      do
        let _ ← bump
        pure (.next (text, level))
  | none => pure (.done st.1)

/-- `parse_text_format_message` (parse/mod.rs:980-1006). -/
def parseTextFormat [FloatFmt] (fuel : Nat) : Prog Bytes := do
  assertNoPeek
  setTextMode true
  let text ← loopM textFormatStep fuel ([], 0)
  setTextMode false
  pure text

/-- `parse_option_name_part` (parse/mod.rs:967-978). -/
def parseOptionNamePart (fuel : Nat) : Prog Ast.OptionNamePart := do
  match ← peek with
  | some (tok, start) =>
    if tok = .leftParen then do
      let _ ← bump
      let name ← parseTypeName fuel [.token .rightParen]
      let stop ← expectEq .rightParen
      pure (.extension name (joinSpan start stop))
    else match tok with
      | .ident _ => do
        let i ← parseIdent
        pure (.ident i)
      | _ => unexpected Says.optionName
  | none => unexpected Says.optionName

/-- The loop over the name of `parse_option_body` (parse/mod.rs:896-909). -/
def optionNameStep (fuel : Nat) (acc : List Ast.OptionNamePart) :
    Prog (Step (List Ast.OptionNamePart) (List Ast.OptionNamePart)) := do
  match ← peekSkip with
  | some (tok, _) =>
    if tok = .dot then do
      let _ ← bump
      let p ← parseOptionNamePart fuel
      pure (.next (acc ++ [p]))
    else if tok = .equals then do
      let _ ← bump
      pure (.done acc)
    else unexpected Says.equalsOrDot
  | none => unexpected Says.equalsOrDot

/-- The value of `parse_option_body` (parse/mod.rs:911-962). -/
def parseOptionValue [FloatFmt] (fuel : Nat) : Prog Ast.OptionValue := do
  match ← peekSkip with
  | some (tok, start) =>
    match tok with
    | .minus => do
      let _ ← bump
      match ← peekSkip with
      | some (tok2, stop) =>
        match tok2 with
        | .ident _ => do
          let i ← parseIdent
          pure (.ident true i (joinSpan start stop))
        | .int v => do
          let _ ← bump
          pure (.int ⟨true, v, joinSpan start stop⟩)
        | .float t => do
          let _ ← bump
          pure (.float ⟨(FloatVal.lit false t).neg, joinSpan start stop⟩)
        | _ => unexpected Says.numeric
      | none => unexpected Says.numeric
    | .ident _ => do
      let i ← parseIdent
      pure (.ident false i start)
    | .int v => do
      let _ ← bump
      pure (.int ⟨false, v, start⟩)
    | .float t => do
      let _ ← bump
      pure (.float ⟨.lit false t, start⟩)
    | .string _ => do
      let s ← parseString fuel
      pure (.string s)
    | .leftBrace => do
      let _ ← bump
      let text ← parseTextFormat fuel
      let stop ← expectEq .rightBrace
      pure (.aggregate text (joinSpan start stop))
    | _ => unexpected Says.constant
  | none => unexpected Says.constant

/-- `parse_option_body` (parse/mod.rs:893-965). -/
def parseOptionBody [FloatFmt] (fuel : Nat) : Prog Ast.OptionBody := do
  let p ← parseOptionNamePart fuel
  let name ← loopM (optionNameStep fuel) fuel [p]
  let value ← parseOptionValue fuel
  pure ⟨name, value⟩

/-- `parse_option` (parse/mod.rs:877-891). -/
def parseOption [FloatFmt] (fuel : Nat) : Prog Ast.Opt := do
  let lead ← leading
  let start ← expectEq (kw b!"option")
  let body ← parseOptionBody fuel
  let stop ← expectEq .semicolon
  let comments ← trailing lead
  pure ⟨body, comments, joinSpan start stop⟩

/-- The loop of `parse_options_list` (parse/mod.rs:860-869). -/
def optionsListStep [FloatFmt] (fuel : Nat) (acc : List Ast.OptionBody) :
    Prog (Step (List Ast.OptionBody) (List Ast.OptionBody × Span)) := do
  match ← peekSkip with
  | some (tok, _) =>
    if tok = .comma then do
      let _ ← bump
      let b ← parseOptionBody fuel
      pure (.next (acc ++ [b]))
    else if tok = .rightBracket then do
      let stop ← bump
      pure (.done (acc, stop))
    else unexpected Says.commaOrBracket
  | none => unexpected Says.commaOrBracket

/-- `parse_options_list` (parse/mod.rs:856-875). -/
def parseOptionsList [FloatFmt] (fuel : Nat) : Prog Ast.OptionList := do
  let start ← expectEq .leftBracket
  let b ← parseOptionBody fuel
  let (options, stop) ← loopM (optionsListStep fuel) fuel [b]
  pure ⟨options, joinSpan start stop⟩

/-- `match self.peek_skip_comments()? { '[' => Some(options list), t => None, _ => unexpected }`
(parse/mod.rs:358-362, 400-404, 437-441, 652-656, 770-774).  The code passes the literal texts `';' or '['` and
`'{' or '['`, which are the texts of these two lists. -/
def parseOptOptions [FloatFmt] (fuel : Nat) (terminator : Token) : Prog (Option Ast.OptionList) := do
  match ← peekSkip with
  | some (tok, _) =>
    if tok = .leftBracket then do
      let l ← parseOptionsList fuel
      pure (some l)
    else if tok = terminator then pure none
    else unexpected (.oneOf [.token terminator, .token .leftBracket])
  | none => unexpected (.oneOf [.token terminator, .token .leftBracket])

/-- `parse_reserved_range` (parse/mod.rs:832-854). -/
def parseReservedRange : Prog Ast.ReservedRange := do
  let start ← parseInt
  match ← peekSkip with
  | some (tok, _) =>
    if tok = kw b!"to" then do
      let _ ← bump
      match ← peekSkip with
      | some (tok2, span) =>
        if tok2 = kw b!"max" then do
          let _ ← bump
          pure ⟨start, .max span⟩
        else match tok2 with
          | .int _ | .minus => do
            let i ← parseInt
            pure ⟨start, .int i⟩
          | _ => unexpected Says.rangeEnd
      | none => unexpected Says.rangeEnd
    else if tok = .comma ∨ tok = .semicolon then pure ⟨start, .none⟩
    else unexpected Says.rangeTo
  | none => unexpected Says.rangeTo

/-- The loop of `parse_reserved_ranges` (parse/mod.rs:815-827). -/
def reservedRangesStep (terms : List Expected) (acc : List Ast.ReservedRange) :
    Prog (Step (List Ast.ReservedRange) (List Ast.ReservedRange)) := do
  match ← peekSkip with
  | some (tok, _) =>
    if tok = .comma then do
      let _ ← bump
      let r ← parseReservedRange
      pure (.next (acc ++ [r]))
    else if terms.any (·.matches tok) then pure (.done acc)
    else unexpected (.oneOf (.token .comma :: terms))
  | none => unexpected (.oneOf (.token .comma :: terms))

/-- `parse_reserved_ranges` (parse/mod.rs:809-830). -/
def parseReservedRanges (fuel : Nat) (terms : List Expected) : Prog (List Ast.ReservedRange) := do
  let r ← parseReservedRange
  loopM (reservedRangesStep terms) fuel [r]

/-- `parse_ident_string` (parse/mod.rs:801-807). -/
def parseIdentString (fuel : Nat) : Prog Ast.Ident := do
  let (v, span) ← parseUtf8String fuel
  if isValidIdent v then pure ⟨v, span⟩
  else do
    addError (.invalidIdentifier span)
    pure ⟨v, span⟩

/-- The loop of `parse_reserved_names` (parse/mod.rs:787-796). -/
def reservedNamesStep (fuel : Nat) (acc : List Ast.Ident) :
    Prog (Step (List Ast.Ident) (List Ast.Ident × Span)) := do
  match ← peekSkip with
  | some (tok, _) =>
    if tok = .comma then do
      let _ ← bump
      let i ← parseIdentString fuel
      pure (.next (acc ++ [i]))
    else if tok = .semicolon then do
      let stop ← bump
      pure (.done (acc, stop))
    else unexpected Says.commaOrSemi
  | none => unexpected Says.commaOrSemi

/-- `parse_reserved_names` (parse/mod.rs:784-799). -/
def parseReservedNames (fuel : Nat) : Prog (List Ast.Ident × Span) := do
  let i ← parseIdentString fuel
  loopM (reservedNamesStep fuel) fuel [i]

/-- `parse_reserved` (parse/mod.rs:731-757). -/
def parseReserved (fuel : Nat) : Prog Ast.Reserved := do
  let lead ← leading
  let start ← expectEq (kw b!"reserved")
  match ← peekSkip with
  | some (tok, _) =>
    match tok with
    | .int _ | .minus => do
      let ranges ← parseReservedRanges fuel [.token .semicolon]
      let stop ← expectEq .semicolon
      let comments ← trailing lead
      pure ⟨.ranges ranges, comments, joinSpan start stop⟩
    | .string _ => do
      let (names, stop) ← parseReservedNames fuel
      let comments ← trailing lead
      pure ⟨.names names, comments, joinSpan start stop⟩
    | _ => unexpected Says.reserved
  | none => unexpected Says.reserved

/-- `parse_extensions` (parse/mod.rs:759-782). -/
def parseExtensions [FloatFmt] (fuel : Nat) : Prog Ast.Extensions := do
  let lead ← leading
  let start ← expectEq (kw b!"extensions")
  let ranges ← parseReservedRanges fuel [.token .semicolon, .token .leftBracket]
  let options ← parseOptOptions fuel .semicolon
  let stop ← expectEq .semicolon
  let comments ← trailing lead
  pure ⟨ranges, options, comments, joinSpan start stop⟩

/-- The scalar types of `parse_field_type` (parse/mod.rs:704-718). -/
def scalarTy (tok : Token) : Option Ast.Ty :=
  if tok = kw b!"double" then some .double
  else if tok = kw b!"float" then some .float
  else if tok = kw b!"int32" then some .int32
  else if tok = kw b!"int64" then some .int64
  else if tok = kw b!"uint32" then some .uint32
  else if tok = kw b!"uint64" then some .uint64
  else if tok = kw b!"sint32" then some .sint32
  else if tok = kw b!"sint64" then some .sint64
  else if tok = kw b!"fixed32" then some .fixed32
  else if tok = kw b!"fixed64" then some .fixed64
  else if tok = kw b!"sfixed32" then some .sfixed32
  else if tok = kw b!"sfixed64" then some .sfixed64
  else if tok = kw b!"bool" then some .bool
  else if tok = kw b!"string" then some .string
  else if tok = kw b!"bytes" then some .bytes
  else none

/-- `parse_field_type` (parse/mod.rs:702-729). -/
def parseFieldType (fuel : Nat) (terms : List Expected) : Prog (Ast.Ty × Span) := do
  match ← peek with
  | some (tok, span) =>
    match scalarTy tok with
    | some ty => do
      let _ ← bump
      pure (ty, span)
    | none =>
      if Token.startsType tok then do
        let t ← parseTypeName fuel terms
        match t.span with
        | some sp => pure (.named t, sp)
        | none => .panicked
      else unexpected Says.fieldType
  | none => unexpected Says.fieldType

/-- `parse_map` (parse/mod.rs:334-379). -/
def parseMap [FloatFmt] (fuel : Nat) (lead : List Bytes × Option Bytes) (start : Span)
    (label : Option (Ast.FieldLabel × Span)) : Prog Ast.Field := do
  let tyStart ← expectEq (kw b!"map")
  let _ ← expectEq .leftAngle
  let (keyTy, keySpan) ← parseFieldType fuel [.token .comma]
  let _ ← expectEq .comma
  let (valTy, valSpan) ← parseFieldType fuel [.token .rightAngle]
  let tyStop ← expectEq .rightAngle
  let name ← parseIdent
  let _ ← expectEq .equals
  let number ← parseInt
  let options ← parseOptOptions fuel .semicolon
  let stop ← expectEq .semicolon
  let comments ← trailing lead
  pure { label, kind := .map (joinSpan tyStart tyStop) keyTy keySpan valTy valSpan, name, number, options,
         comments, span := joinSpan start stop }

/-- `parse_group` (parse/mod.rs:381-421); `body` is `parse_message_body`. -/
def parseGroup [FloatFmt] (body : Prog (Ast.MessageBody × Span)) (fuel : Nat)
    (lead : List Bytes × Option Bytes) (start : Span) (label : Option (Ast.FieldLabel × Span)) :
    Prog Ast.Field := do
  let tySpan ← expectEq (kw b!"group")
  let name ← parseIdent
  (if isValidGroupName name.value then pure () else addError (.invalidGroupName name.span))
  let _ ← expectEq .equals
  let number ← parseInt
  let options ← parseOptOptions fuel .leftBrace
  let _ ← expectEq .leftBrace
  let comments ← trailing lead
  let (b, stop) ← body
  pure { label, kind := .group tySpan b, name, number, options, comments, span := joinSpan start stop }

/-- `parse_normal_field` (parse/mod.rs:423-455). -/
def parseNormalField [FloatFmt] (fuel : Nat) (lead : List Bytes × Option Bytes) (start : Span)
    (label : Option (Ast.FieldLabel × Span)) : Prog Ast.Field := do
  let (ty, tySpan) ← parseFieldType fuel [.ident]
  let name ← parseIdent
  let _ ← expectEq .equals
  let number ← parseInt
  let options ← parseOptOptions fuel .semicolon
  let stop ← expectEq .semicolon
  let comments ← trailing lead
  pure { label, kind := .normal ty tySpan, name, number, options, comments, span := joinSpan start stop }

/-- The label of `parse_field` (parse/mod.rs:310-325). -/
def parseLabel : Prog (Option (Ast.FieldLabel × Span) × Span) := do
  match ← peek with
  | some (tok, span) =>
    if tok = kw b!"optional" then do
      let _ ← bump
      pure (some (.optional, span), span)
    else if tok = kw b!"required" then do
      let _ ← bump
      pure (some (.required, span), span)
    else if tok = kw b!"repeated" then do
      let _ ← bump
      pure (some (.repeated, span), span)
    else if Token.startsType tok then pure (none, span)
    else unexpected Says.field
  | none => unexpected Says.field

/-- `parse_field` (parse/mod.rs:307-332). -/
def parseField [FloatFmt] (body : Prog (Ast.MessageBody × Span)) (fuel : Nat) : Prog Ast.Field := do
  let lead ← leading
  let (label, start) ← parseLabel
  match ← peek with
  | some (tok, _) =>
    if tok = kw b!"map" then parseMap fuel lead start label
    else if tok = kw b!"group" then parseGroup body fuel lead start label
    else parseNormalField fuel lead start label
  | none => parseNormalField fuel lead start label

/-- `parse_enum_value` (parse/mod.rs:641-666). -/
def parseEnumValue [FloatFmt] (fuel : Nat) : Prog Ast.EnumValue := do
  let lead ← leading
  let name ← parseIdent
  let _ ← expectEq .equals
  let number ← parseInt
  let options ← parseOptOptions fuel .semicolon
  let stop ← expectEq .semicolon
  let comments ← trailing lead
  pure ⟨name, number, options, comments, joinSpan name.span stop⟩

/-- One round of the loop of `parse_enum` (parse/mod.rs:611-629). -/
def enumStep [FloatFmt] (fuel : Nat) (acc : List Ast.Opt × List Ast.EnumValue × List Ast.Reserved) :
    Prog (Step (List Ast.Opt × List Ast.EnumValue × List Ast.Reserved)
      ((List Ast.Opt × List Ast.EnumValue × List Ast.Reserved) × Span)) := do
  match ← peek with
  | some (tok, _) =>
    if tok = kw b!"option" then do
      let o ← parseOption fuel
      pure (.next (acc.1 ++ [o], acc.2.1, acc.2.2))
    else if tok = kw b!"reserved" then do
      let r ← parseReserved fuel
      pure (.next (acc.1, acc.2.1, acc.2.2 ++ [r]))
    else match tok with
      | .semicolon => do
        let _ ← bump
        pure (.next acc)
      | .ident _ => do
        let v ← parseEnumValue fuel
        pure (.next (acc.1, acc.2.1 ++ [v], acc.2.2))
      | .rightBrace => do
        let stop ← bump
        pure (.done (acc, stop))
      | _ => unexpected Says.enumItem
  | none => unexpected Says.enumItem

/-- `parse_enum` (parse/mod.rs:597-639). -/
def parseEnum [FloatFmt] (fuel : Nat) : Prog Ast.Enum := do
  let lead ← leading
  let start ← expectEq (kw b!"enum")
  let name ← parseIdent
  let _ ← expectEq .leftBrace
  let comments ← trailing lead
  let (acc, stop) ← loopM (enumStep fuel) fuel ([], [], [])
  pure { name, options := acc.1, values := acc.2.1, reserved := acc.2.2, comments,
         span := joinSpan start stop }

/-- One round of the loop of `parse_oneof` (parse/mod.rs:681-691). -/
def oneofStep [FloatFmt] (body : Prog (Ast.MessageBody × Span)) (fuel : Nat)
    (acc : List Ast.Opt × List Ast.Field) :
    Prog (Step (List Ast.Opt × List Ast.Field) ((List Ast.Opt × List Ast.Field) × Span)) := do
  match ← peek with
  | some (tok, _) =>
    if tok = kw b!"option" then do
      let o ← parseOption fuel
      pure (.next (acc.1 ++ [o], acc.2))
    else match tok with
      | .semicolon => do
        let _ ← bump
        pure (.next acc)
      | .rightBrace => do
        let stop ← bump
        pure (.done (acc, stop))
      | .dot | .ident _ => do
        let f ← parseField body fuel
        pure (.next (acc.1, acc.2 ++ [f]))
      | _ => unexpected Says.oneofItem
  | none => unexpected Says.oneofItem

/-- `parse_oneof` (parse/mod.rs:668-700). -/
def parseOneof [FloatFmt] (body : Prog (Ast.MessageBody × Span)) (fuel : Nat) : Prog Ast.Oneof := do
  let lead ← leading
  let start ← expectEq (kw b!"oneof")
  let name ← parseIdent
  let _ ← expectEq .leftBrace
  let comments ← trailing lead
  let (acc, stop) ← loopM (oneofStep body fuel) fuel ([], [])
  pure { name, options := acc.1, fields := acc.2, comments, span := joinSpan start stop }

/-- One round of the loop of `parse_extend` (parse/mod.rs:468-478). -/
def extendStep [FloatFmt] (body : Prog (Ast.MessageBody × Span)) (fuel : Nat) (acc : List Ast.Field) :
    Prog (Step (List Ast.Field) (List Ast.Field × Span)) := do
  match ← peek with
  | some (tok, _) =>
    match tok with
    | .semicolon => do
      let _ ← bump
      pure (.next acc)
    | .rightBrace => do
      let stop ← bump
      pure (.done (acc, stop))
    | .dot | .ident _ => do
      let f ← parseField body fuel
      pure (.next (acc ++ [f]))
    | _ => unexpected Says.extendItem
  | none => unexpected Says.extendItem

/-- `parse_extend` (parse/mod.rs:457-486). -/
def parseExtend [FloatFmt] (body : Prog (Ast.MessageBody × Span)) (fuel : Nat) : Prog Ast.Extend := do
  let lead ← leading
  let start ← expectEq (kw b!"extend")
  let extendee ← parseTypeName fuel [.token .leftBrace]
  let _ ← expectEq .leftBrace
  let comments ← trailing lead
  let (fields, stop) ← loopM (extendStep body fuel) fuel []
  pure { extendee, fields, comments, span := joinSpan start stop }

/-- `parse_message` (parse/mod.rs:243-261). -/
def parseMessage (body : Prog (Ast.MessageBody × Span)) : Prog Ast.Message := do
  let lead ← leading
  let start ← expectEq (kw b!"message")
  let name ← parseIdent
  let _ ← expectEq .leftBrace
  let comments ← trailing lead
  let (b, stop) ← body
  pure { name, body := b, comments, span := joinSpan start stop }

/-- One round of the loop of `parse_message_body` (parse/mod.rs:270-295); `body` parses nested bodies. -/
def bodyStep [FloatFmt] (body : Prog (Ast.MessageBody × Span)) (fuel : Nat) (acc : Ast.MessageBody) :
    Prog (Step Ast.MessageBody (Ast.MessageBody × Span)) := do
  match ← peek with
  | some (tok, _) =>
    if tok = kw b!"oneof" then do
      let o ← parseOneof body fuel
      pure (.next { acc with items := acc.items ++ [.oneof o] })
    else if tok = kw b!"enum" then do
      let e ← parseEnum fuel
      pure (.next { acc with items := acc.items ++ [.enum e] })
    else if tok = kw b!"message" then do
      let x ← parseMessage body
      pure (.next { acc with items := acc.items ++ [.message x] })
    else if tok = kw b!"extend" then do
      let e ← parseExtend body fuel
      pure (.next { acc with items := acc.items ++ [.extend e] })
    else if tok = kw b!"option" then do
      let o ← parseOption fuel
      pure (.next { acc with options := acc.options ++ [o] })
    else if tok = kw b!"reserved" then do
      let r ← parseReserved fuel
      pure (.next { acc with reserved := acc.reserved ++ [r] })
    else if tok = kw b!"extensions" then do
      let e ← parseExtensions fuel
      pure (.next { acc with extensions := acc.extensions ++ [e] })
    else match tok with
      | .dot | .ident _ => do
        let f ← parseField body fuel
        pure (.next { acc with items := acc.items ++ [.field f] })
      | .semicolon => do
        let _ ← bump
        pure (.next acc)
      | .rightBrace => do
        let stop ← bump
        pure (.done (acc, stop))
      | _ => unexpected Says.bodyItem
  | none => unexpected Says.bodyItem

/-- `parse_message_body` (parse/mod.rs:263-305), with a counter for the nesting depth. -/
def parseMessageBody [FloatFmt] (fuel : Nat) : Nat → Prog (Ast.MessageBody × Span)
  | 0 => .outOfFuel
  | depth + 1 => loopM (bodyStep (parseMessageBody fuel depth) fuel) fuel ⟨[], [], [], []⟩

/-- `match self.peek_skip_comments()? { stream => Some(self.bump()), type name => None }`
(parse/mod.rs:536-540, 548-552). -/
def parseStreaming : Prog (Option Span) := do
  match ← peekSkip with
  | some (tok, _) =>
    if tok = kw b!"stream" then do
      let sp ← bump
      pure (some sp)
    else if Token.startsType tok then pure none
    else unexpected Says.streaming
  | none => unexpected Says.streaming

/-- One round of the loop over method options (parse/mod.rs:566-578). -/
def methodOptionStep [FloatFmt] (fuel : Nat) (acc : List Ast.Opt) :
    Prog (Step (List Ast.Opt) (List Ast.Opt × Span)) := do
  match ← peek with
  | some (tok, _) =>
    if tok = kw b!"option" then do
      let o ← parseOption fuel
      pure (.next (acc ++ [o]))
    else if tok = .rightBrace then do
      let stop ← bump
      pure (.done (acc, stop))
    else if tok = .semicolon then do
      let _ ← bump
      pure (.next acc)
    else unexpected Says.methodItem
  | none => unexpected Says.methodItem

/-- `parse_service_rpc` (parse/mod.rs:527-595). -/
def parseRpc [FloatFmt] (fuel : Nat) : Prog Ast.Method := do
  let lead ← leading
  let start ← expectEq (kw b!"rpc")
  let name ← parseIdent
  let _ ← expectEq .leftParen
  let clientStreaming ← parseStreaming
  let inputTy ← parseTypeName fuel [.token .rightParen]
  let _ ← expectEq .rightParen
  let _ ← expectEq (kw b!"returns")
  let _ ← expectEq .leftParen
  let serverStreaming ← parseStreaming
  let outputTy ← parseTypeName fuel [.token .rightParen]
  let _ ← expectEq .rightParen
  let (options, stop) ← (do
    match ← peekSkip with
    | some (tok, span) =>
      if tok = .semicolon then do
        let _ ← bump
        pure ([], span)
      else if tok = .leftBrace then do
        let _ ← bump
        loopM (methodOptionStep fuel) fuel []
      else unexpected Says.methodEnd
    | none => unexpected Says.methodEnd)
  let comments ← trailing lead
  pure { name, inputTy, outputTy, options, clientStreaming, serverStreaming, comments,
         span := joinSpan start stop }

/-- One round of the loop of `parse_service` (parse/mod.rs:501-517). -/
def serviceStep [FloatFmt] (fuel : Nat) (acc : List Ast.Opt × List Ast.Method) :
    Prog (Step (List Ast.Opt × List Ast.Method) ((List Ast.Opt × List Ast.Method) × Span)) := do
  match ← peek with
  | some (tok, _) =>
    if tok = kw b!"rpc" then do
      let x ← parseRpc fuel
      pure (.next (acc.1, acc.2 ++ [x]))
    else if tok = kw b!"option" then do
      let o ← parseOption fuel
      pure (.next (acc.1 ++ [o], acc.2))
    else if tok = .semicolon then do
      let _ ← bump
      pure (.next acc)
    else if tok = .rightBrace then do
      let stop ← bump
      pure (.done (acc, stop))
    else unexpected Says.serviceItem
  | none => unexpected Says.serviceItem

/-- `parse_service` (parse/mod.rs:488-525). -/
def parseService [FloatFmt] (fuel : Nat) : Prog Ast.Service := do
  let lead ← leading
  let start ← expectEq (kw b!"service")
  let name ← parseIdent
  let _ ← expectEq .leftBrace
  let comments ← trailing lead
  let (acc, stop) ← loopM (serviceStep fuel) fuel ([], [])
  pure { name, options := acc.1, methods := acc.2, comments, span := joinSpan start stop }

/-- `parse_package` (parse/mod.rs:187-203). -/
def parsePackage (fuel : Nat) : Prog Ast.Package := do
  let lead ← leading
  let start ← expectEq (kw b!"package")
  let name ← parseFullIdent fuel [.token .semicolon]
  let stop ← expectEq .semicolon
  let comments ← trailing lead
  pure { name, comments, span := joinSpan start stop }

/-- `parse_import` (parse/mod.rs:205-241). -/
def parseImport (fuel : Nat) : Prog Ast.Import := do
  let lead ← leading
  let start ← expectEq (kw b!"import")
  let kind : Option (Ast.ImportKind × Span) ← (do
    match ← peekSkip with
    | some (tok, span) =>
      if tok = kw b!"weak" then do
        let _ ← bump
        pure (some (.weak, span))
      else if tok = kw b!"public" then do
        let _ ← bump
        pure (some (.publ, span))
      else match tok with
        | .string _ => pure none
        | _ => unexpected Says.importKind
    | none => unexpected Says.importKind)
  let (value, valueSpan) ← parseUtf8String fuel
  (if isValidImport value then pure () else addError (.invalidImport valueSpan))
  let stop ← expectEq .semicolon
  let comments ← trailing lead
  pure { kind, value, valueSpan, comments, span := joinSpan start stop }

/-- `parse_syntax` (parse/mod.rs:136-165). The text in `UnknownSyntax` keeps the bytes instead of
`String::from_utf8_lossy`. -/
def parseSyntax (fuel : Nat) : Prog (Ast.Syntax' × Span × Ast.Comments) := do
  let lead ← leading
  let start ← expectEq (kw b!"syntax")
  let _ ← expectEq .equals
  match ← peek with
  | some (tok, _) =>
    match tok with
    | .string _ => do
      let v ← parseString fuel
      if v.value = b!"proto2" then do
        let stop ← expectEq .semicolon
        let comments ← trailing lead
        pure (.proto2, joinSpan start stop, comments)
      else if v.value = b!"proto3" then do
        let stop ← expectEq .semicolon
        let comments ← trailing lead
        pure (.proto3, joinSpan start stop, comments)
      else do
        addError (.unknownSyntax v.value v.span)
        failed
    | _ => unexpected Says.syntaxString
  | none => unexpected Says.syntaxString

/-- `Statement` (parse/mod.rs:42-51). -/
inductive Statement where
  | empty (span : Span)
  | package (p : Ast.Package)
  | import' (i : Ast.Import)
  | option (o : Ast.Opt)
  | message (x : Ast.Message)
  | enum (e : Ast.Enum)
  | service (s : Ast.Service)
  | extend (e : Ast.Extend)

/-- `Statement::span` (parse/mod.rs:1329-1340). -/
def Statement.span : Statement → Span
  | .empty s => s
  | .package p => p.span
  | .import' i => i.span
  | .option o => o.span
  | .message x => x.span
  | .enum e => e.span
  | .service s => s.span
  | .extend e => e.span

/-- `parse_statement` (parse/mod.rs:167-185). -/
def parseStatement [FloatFmt] (fuel : Nat) : Prog (Option Statement) := do
  match ← peek with
  | none => pure none
  | some (tok, span) =>
    if tok = .semicolon then do
      let _ ← bump
      pure (some (.empty span))
    else if tok = kw b!"import" then do
      let x ← parseImport fuel
      pure (some (.import' x))
    else if tok = kw b!"package" then do
      let x ← parsePackage fuel
      pure (some (.package x))
    else if tok = kw b!"option" then do
      let x ← parseOption fuel
      pure (some (.option x))
    else if tok = kw b!"extend" then do
      let x ← parseExtend (parseMessageBody fuel fuel) fuel
      pure (some (.extend x))
    else if tok = kw b!"message" then do
      let x ← parseMessage (parseMessageBody fuel fuel)
      pure (some (.message x))
    else if tok = kw b!"enum" then do
      let x ← parseEnum fuel
      pure (some (.enum x))
    else if tok = kw b!"service" then do
      let x ← parseService fuel
      pure (some (.service x))
    else unexpected Says.statement

/-- What `parse_file` has collected so far (parse/mod.rs:63-86). -/
structure Acc where
  span : Span
  package : Option Ast.Package := none
  imports : List Ast.Import := []
  options : List Ast.Opt := []
  items : List Ast.FileItem := []

/-- The effect of one statement in `parse_file` (parse/mod.rs:91-112): the new state and the error to record. -/
def Acc.add (a : Acc) (st : Statement) : Acc × Option ParseErrorKind :=
  let a := { a with span := joinSpan a.span st.span }
  match st with
  | .empty _ => (a, none)
  | .package p => match a.package with
    | some q => (a, some (.duplicatePackage q.span p.span))
    | none => ({ a with package := some p }, none)
  | .import' i => ({ a with imports := a.imports ++ [i] }, none)
  | .option o => ({ a with options := a.options ++ [o] }, none)
  | .message x => ({ a with items := a.items ++ [.message x] }, none)
  | .enum e => ({ a with items := a.items ++ [.enum e] }, none)
  | .service s => ({ a with items := a.items ++ [.service s] }, none)
  | .extend e => ({ a with items := a.items ++ [.extend e] }, none)

/-- The start of `parse_file` (parse/mod.rs:63-80): the syntax statement and the first span. -/
def parseHeader (fuel : Nat) (len : Nat) : Prog (Ast.Syntax' × Option (Span × Ast.Comments) × Span) := do
  match ← peek with
  | some (tok, span) =>
    if tok = kw b!"syntax" then do
      let (syn, sp, comments) ← parseSyntax fuel
      pure (syn, some (sp, comments), sp)
    else pure (.proto2, none, span)
  | none => pure (.proto2, none, ⟨len, 0⟩)

namespace P

/-- The tokens `parse_file` resynchronises on (parse/mod.rs:115-123). -/
def syncTokens : List Token :=
  [kw b!"enum", kw b!"extend", kw b!"import", kw b!"message", kw b!"option", kw b!"service", kw b!"package"]

/-- `skip_until` (parse/mod.rs:1160-1173), with a loop counter. -/
def skipUntil : Nat → P Unit
  | 0 => fun s => (.oof, s)
  | n + 1 => fun s =>
    match peek s with
    | (.ok none, s') => (.ok (), s')
    | (.ok (some (tok, _)), s') =>
      if tok ∈ syncTokens then (.ok (), s')
      else match bump s' with
        | (.ok _, s'') => skipUntil n s''
        | (.panic, s'') => (.panic, s'')
        | (.oof, s'') => (.oof, s'')
        | (.err, s'') => (.err, s'')
    | (.err, s') => skipUntil n { s' with peek := none }
    | (.panic, s') => (.panic, s')
    | (.oof, s') => (.oof, s')

/-- The loop of `parse_file` (parse/mod.rs:88-126), with a loop counter. The `debug_assert!` on the error list
(parse/mod.rs:114) is a panic. -/
def fileLoop [FloatFmt] (fuel : Nat) : Nat → Acc → P Acc
  | 0, _ => fun s => (.oof, s)
  | n + 1, acc => fun s =>
    match (parseStatement fuel).run s with
    | (.ok (some st), s') =>
      match acc.add st with
      | (acc', none) => fileLoop fuel n acc' s'
      | (acc', some e) => fileLoop fuel n acc' { s' with errs := s'.errs ++ [e] }
    | (.ok none, s') => (.ok acc, s')
    | (.err, s') =>
      if s'.errs = [] then (.panic, s')
      else match skipUntil (s'.rest.length + 3) s' with
        | (.ok _, s'') => fileLoop fuel n acc s''
        | (.err, s'') => (.err, s'')
        | (.panic, s'') => (.panic, s'')
        | (.oof, s'') => (.oof, s'')
    | (.panic, s') => (.panic, s')
    | (.oof, s') => (.oof, s')

/-- `Parser::parse_file` (parse/mod.rs:62-134). -/
def parseFile [FloatFmt] (fuel : Nat) (len : Nat) : P Ast.File := do
  let (syn, synSpan, span) ← (parseHeader fuel len).run
  let acc ← fileLoop fuel fuel { span }
  pure { span := acc.span, syntax' := syn, syntaxSpan := synSpan, package := acc.package,
         imports := acc.imports, options := acc.options, items := acc.items }

end P

/-- `parse_file` (parse/mod.rs:22-28): `Ok` only if no error was recorded. All loop counters start at the
length of the source plus three. -/
def parseFile [FloatFmt] (src : Bytes) : Res (Except (List ParseErrorKind) Ast.File) :=
  match P.parseFile (src.length + 3) src.length (PState.init src) with
  | (.ok ast, s) => if s.errs = [] then .ok (.ok ast) else .ok (.error s.errs)
  | (.err, s) => .ok (.error s.errs)
  | (.panic, _) => .panic
  | (.oof, _) => .oof

end Verif.Parse
