import Verif.Model.Nodes
/-
Model of how a catalogue is read from JSON text: `serde_json::from_str::<AHashMap<String, RawProduct>>` (src/lib.rs:244,
src/main.rs:14), that is serde_json 1.0.79 and the code derived for the structs of src/data/raw_parser.rs:14-48.

Simplifications: serde decodes while it scans the text, here the text is first scanned into a tree which keeps the
spelling of strings and numbers, and the tree is then decoded; a failure of either is the failure of both, the kind of
error is not modelled. serde_json works on UTF-8 bytes, here on characters: everything it compares with is ASCII. Its
limit of 128 nested values cannot be reached by these types, and it does not apply to values that are skipped.
-/
namespace Idx

/-- One element of a string literal: a character standing for itself, a two-character escape, or `\uXXXX`. -/
inductive Piece where
  | plain (c : Char)
  | esc (c : Char)
  | hex (n : Nat)
  deriving DecidableEq, Repr

/-- A JSON text: strings as spelled, numbers as spelled. -/
inductive Json where
  | null
  | bool (b : Bool)
  | num (text : Str)
  | str (pieces : List Piece)
  | arr (items : List Json)
  | obj (members : List (List Piece × Json))

/-- Whitespace of serde_json's `parse_whitespace`. -/
def isJsonSpace (c : Char) : Bool := c == ' ' || c == '\n' || c == '\t' || c == '\r'

/-- serde_json's `parse_whitespace`. -/
def skipSpace : Str → Str
  | c :: r => if isJsonSpace c then skipSpace r else c :: r
  | [] => []

/-- Value of a hexadecimal digit (serde_json's `HEX` table). -/
def hexDigit (c : Char) : Option Nat :=
  if '0' ≤ c ∧ c ≤ '9' then some (c.toNat - 48)
  else if 'a' ≤ c ∧ c ≤ 'f' then some (c.toNat - 87)
  else if 'A' ≤ c ∧ c ≤ 'F' then some (c.toNat - 55)
  else none

/-- serde_json's `decode_hex_escape`. -/
def hex4 (a b c d : Char) : Option Nat := do
  let a ← hexDigit a
  let b ← hexDigit b
  let c ← hexDigit c
  let d ← hexDigit d
  pure (((a * 16 + b) * 16 + c) * 16 + d)

/-- The characters of the two-character escapes (serde_json's `parse_escape`). -/
def escapeChars : List Char := ['"', '\\', '/', 'b', 'f', 'n', 'r', 't']

/-- serde_json's `parse_str` after the opening quote; control characters are refused. -/
def parsePieces : Str → Option (List Piece × Str)
  | [] => none
  | '"' :: r => some ([], r)
  | '\\' :: 'u' :: a :: b :: c :: d :: r =>
    match hex4 a b c d with
    | some n => (parsePieces r).map fun (ps, r) => (.hex n :: ps, r)
    | none => none
  | '\\' :: c :: r => if c ∈ escapeChars then (parsePieces r).map fun (ps, r) => (.esc c :: ps, r) else none
  | c :: r => if c = '\\' ∨ c.toNat < 32 then none else (parsePieces r).map fun (ps, r) => (.plain c :: ps, r)

def isDigit (c : Char) : Bool := '0' ≤ c && c ≤ '9'

/-- The longest run of digits. -/
def spanDigits : Str → Str × Str
  | c :: r => if isDigit c then ((c :: (spanDigits r).1), (spanDigits r).2) else ([], c :: r)
  | [] => ([], [])

/-- An optional sign. -/
def parseSign : Str → Str × Str
  | '+' :: r => (['+'], r)
  | '-' :: r => (['-'], r)
  | s => ([], s)

/-- serde_json's `ignore_exponent` after the `e`. -/
def parseExponent (s : Str) : Option (Str × Str) :=
  match spanDigits (parseSign s).2 with
  | ([], _) => none
  | (ds, r) => some ((parseSign s).1 ++ ds, r)

/-- The optional exponent of a number. -/
def parseExponent? : Str → Option (Str × Str)
  | 'e' :: r => (parseExponent r).map fun (t, r) => ('e' :: t, r)
  | 'E' :: r => (parseExponent r).map fun (t, r) => ('E' :: t, r)
  | s => some ([], s)

/-- The optional fraction and exponent of a number (serde_json's `ignore_decimal`). -/
def parseFraction? : Str → Option (Str × Str)
  | '.' :: s =>
    match spanDigits s with
    | ([], _) => none
    | (ds, r) => (parseExponent? r).map fun (t, r) => ('.' :: ds ++ t, r)
  | s => parseExponent? s

/-- serde_json's `ignore_integer`: no leading zeros. -/
def parseInteger (s : Str) : Option (Str × Str) :=
  match spanDigits s with
  | ([], _) => none
  | ('0' :: _ :: _, _) => none
  | (ds, r) => (parseFraction? r).map fun (t, r) => (ds ++ t, r)

/-- A number. -/
def parseNumber : Str → Option (Str × Str)
  | '-' :: s => (parseInteger s).map fun (t, r) => ('-' :: t, r)
  | s => parseInteger s

mutual
/-- A value, without whitespace before it (serde_json's `ignore_value` and `deserialize_*`). The first argument bounds the
recursion; `parseJson` gives more than enough. -/
def parseValue : Nat → Str → Option (Json × Str)
  | 0, _ => none
  | fuel + 1, s =>
    match s with
    | 'n' :: 'u' :: 'l' :: 'l' :: r => some (.null, r)
    | 't' :: 'r' :: 'u' :: 'e' :: r => some (.bool true, r)
    | 'f' :: 'a' :: 'l' :: 's' :: 'e' :: r => some (.bool false, r)
    | '"' :: r => (parsePieces r).map fun (ps, r) => (.str ps, r)
    | '[' :: r =>
      match skipSpace r with
      | ']' :: r => some (.arr [], r)
      | r => (parseItems fuel r).map fun (l, r) => (.arr l, r)
    | '{' :: r =>
      match skipSpace r with
      | '}' :: r => some (.obj [], r)
      | r => (parseMembers fuel r).map fun (l, r) => (.obj l, r)
    | s => (parseNumber s).map fun (t, r) => (.num t, r)

/-- The elements of an array up to its end, at least one (serde_json's `SeqAccess`). -/
def parseItems : Nat → Str → Option (List Json × Str)
  | 0, _ => none
  | fuel + 1, s => do
    let (v, r) ← parseValue fuel s
    match skipSpace r with
    | ',' :: r => (parseItems fuel (skipSpace r)).map fun (l, r) => (v :: l, r)
    | ']' :: r => some ([v], r)
    | _ => none

/-- The members of an object up to its end, at least one (serde_json's `MapAccess`). -/
def parseMembers : Nat → Str → Option (List (List Piece × Json) × Str)
  | 0, _ => none
  | fuel + 1, s =>
    match s with
    | '"' :: r => do
      let (k, r) ← parsePieces r
      match skipSpace r with
      | ':' :: r => do
        let (v, r) ← parseValue fuel (skipSpace r)
        match skipSpace r with
        | ',' :: r => (parseMembers fuel (skipSpace r)).map fun (l, r) => ((k, v) :: l, r)
        | '}' :: r => some ([(k, v)], r)
        | _ => none
      | _ => none
    | _ => none
end

/-- `serde_json::from_str` up to decoding: one value, whitespace around it, nothing else. -/
def parseJson (s : Str) : Option Json :=
  match parseValue (s.length + 1) (skipSpace s) with
  | some (j, r) => if skipSpace r = [] then some j else none
  | none => none

/-- What a two-character escape stands for. -/
def escapeValue : Char → Option Char
  | '"' => some '"'
  | '\\' => some '\\'
  | '/' => some '/'
  | 'b' => some (Char.ofNat 8)
  | 'f' => some (Char.ofNat 12)
  | 'n' => some '\n'
  | 'r' => some '\r'
  | 't' => some '\t'
  | _ => none

/-- The text of a string literal (serde_json's `parse_escape`): `\u` escapes of surrogates must come in pairs. -/
def decodePieces : List Piece → Option Str
  | [] => some []
  | .plain c :: ps => (decodePieces ps).map (c :: ·)
  | .esc c :: ps =>
    match escapeValue c with
    | some x => (decodePieces ps).map (x :: ·)
    | none => none
  | .hex n :: .hex m :: ps =>
    if n.isValidChar then (decodePieces (.hex m :: ps)).map (Char.ofNat n :: ·)
    else if 0xD800 ≤ n ∧ n ≤ 0xDBFF ∧ 0xDC00 ≤ m ∧ m ≤ 0xDFFF then
      (decodePieces ps).map (Char.ofNat ((n - 0xD800) * 0x400 + (m - 0xDC00) + 0x10000) :: ·)
    else none
  | .hex n :: ps => if n.isValidChar then (decodePieces ps).map (Char.ofNat n :: ·) else none

/-- A string literal without escapes, the only kind serde can lend out as `&str`. -/
def borrowPieces : List Piece → Option Str
  | [] => some []
  | .plain c :: ps => (borrowPieces ps).map (c :: ·)
  | _ :: _ => none

/-- Decoding a `String`. -/
def Json.owned : Json → Option Str
  | .str ps => decodePieces ps
  | _ => none

/-- Decoding a `&str`: refused when the literal has an escape. -/
def Json.borrowed : Json → Option Str
  | .str ps => borrowPieces ps
  | _ => none

/-- Decoding a `Vec`. -/
def Json.vec (f : Json → Option α) : Json → Option (List α)
  | .arr l => l.mapM f
  | _ => none

/-- The value of a field of a struct: refused when it is missing or there are two. -/
def fieldOf (name : Str) (members : List (Str × Json)) : Option Json :=
  match members.filter fun m => m.1 == name with
  | [m] => some m.2
  | _ => none

/-- The values of the fields of a struct, as derived by serde: from an object, whose other members are skipped, or from an
array with the fields in the order of the declaration. -/
def Json.fields (names : List Str) : Json → Option (List Json)
  | .arr l => if l.length = names.length then some l else none
  | .obj members => do
    let members ← members.mapM fun (k, v) => (decodePieces k).map (·, v)
    names.mapM (fieldOf · members)
  | _ => none

/-- `CurrencyAmount` (src/data/raw_parser.rs:14-19). -/
def decodeAmount (j : Json) : Option CurrencyAmount := do
  match ← j.fields ["amount".toList, "currencyCode".toList] with
  | [amount, code] => some { amount := ← amount.owned, currencyCode := ← code.owned }
  | _ => none

/-- `ProductPrice` (src/data/raw_parser.rs:21-25). -/
def decodePrice (j : Json) : Option ProductPrice := do
  match ← j.fields ["min".toList, "max".toList] with
  | [min, max] => some { min := ← decodeAmount min, max := ← decodeAmount max }
  | _ => none

/-- `MediaItem` (src/data/raw_parser.rs:27-30). -/
def decodeMedia (j : Json) : Option Str := do
  match ← j.fields ["url".toList] with
  | [url] => url.borrowed
  | _ => none

/-- `RawProductOption` (src/data/raw_parser.rs:44-48). -/
def decodeOption (j : Json) : Option RawOption := do
  match ← j.fields ["name".toList, "values".toList] with
  | [name, values] => some { name := ← name.borrowed, values := ← values.vec Json.borrowed }
  | _ => none

/-- `RawProduct` (src/data/raw_parser.rs:32-42). -/
def decodeProduct (j : Json) : Option RawProduct := do
  match ← j.fields ["description".toList, "tags".toList, "title".toList, "vendor".toList, "id".toList, "options".toList,
      "price".toList, "media".toList] with
  | [description, tags, title, vendor, id, options, price, media] =>
    some {
      description := ← description.owned
      tags := ← tags.vec Json.borrowed
      title := ← title.borrowed
      vendor := ← vendor.borrowed
      id := ← id.borrowed
      options := ← options.vec decodeOption
      price := ← decodePrice price
      media := ← media.vec decodeMedia }
  | _ => none

/-- The entries of a catalogue text, in the order of the text. -/
def readEntries (text : Str) : Option (List (Str × RawProduct)) := do
  match ← parseJson text with
  | .obj members => members.mapM fun (k, v) => do pure (← decodePieces k, ← decodeProduct v)
  | _ => none

/-- `serde_json::from_str::<AHashMap<String, RawProduct>>` (src/lib.rs:244, src/main.rs:14): a later entry replaces an
earlier one with the same key. -/
def readCatalogue (text : Str) : Option (AMap Str RawProduct) :=
  (readEntries text).map AMap.collect

/-- `index` (src/lib.rs:241-251); also `main` (src/main.rs:11-23), where a text that is not a catalogue is an error. -/
def indexText (t : Target) (o : HashOrd) (lower : Char → List Char) (parse : Str → Option F32) (n : Nat) (text : Str) :
    Res Bytes :=
  match readCatalogue text with
  | some catalogue => indexCatalogue t o lower parse n catalogue
  | none => .none

end Idx
