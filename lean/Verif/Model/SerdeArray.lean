import Verif.Model.Json
/-
Model of src/serde_array.rs, which lets serde write and read arrays of any fixed length, over serde_json's JSON texts. Nothing
in the crate uses it. Reading is as in Model/Json.lean: the text is first scanned into a tree.
-/
namespace Idx

/-- Elements separated by commas (serde_json's `SerializeTuple::serialize_element`). -/
def writeItems (w : α → Str) : List α → Str
  | [] => []
  | [a] => w a
  | a :: b :: l => w a ++ ',' :: writeItems w (b :: l)

/-- `arrays::serialize` (src/serde_array.rs:9-18): `serialize_tuple` opens the array, `end` closes it. -/
def writeArray (w : α → Str) (l : List α) : Str := '[' :: (writeItems w l ++ [']'])

/-- The loop of `ArrayVisitor::visit_seq` (src/serde_array.rs:38-43): `n` more elements, and what was not read. -/
def visitSeq (de : Json → Option α) : Nat → List Json → Option (List α × List Json)
  | 0, rest => some ([], rest)
  | _ + 1, [] => none
  | n + 1, x :: rest => do
    let v ← de x
    let (vs, rest) ← visitSeq de n rest
    some (v :: vs, rest)

/-- `arrays::deserialize` (src/serde_array.rs:51-57). After the visitor, serde_json's `end_seq` refuses elements left over. -/
def Json.array (n : Nat) (de : Json → Option α) : Json → Option (List α)
  | .arr items =>
    match visitSeq de n items with
    | some (vs, []) => some vs
    | _ => none
  | _ => none

/-- A `u8` in decimal (serde_json's `format_u8`). -/
def writeU8 (b : UInt8) : Str := Nat.toDigits 10 b.toNat

/-- Reading a `u8`: serde_json gives an unsigned integer for digits only, everything else (a sign, a fraction, an exponent,
more than 64 bits) is no `u8` for serde; out of range is refused. -/
def Json.u8 : Json → Option UInt8
  | .num t => if t.all isDigit && decide (Nat.ofDigitChars 10 t 0 < 256) then some (.ofNat (Nat.ofDigitChars 10 t 0)) else none
  | _ => none

/-- `Serialize` derived for `TypeWithArray` (N = 64) and `TypeWithConstGenericArray` (src/serde_array.rs:62-72). -/
def writeTyped (arr : List UInt8) : Str := "{\"arr\":".toList ++ (writeArray writeU8 arr ++ ['}'])

/-- `Deserialize` derived for `TypeWithArray` (n = 64) and `TypeWithConstGenericArray` (src/serde_array.rs:62-72). -/
def readTyped (n : Nat) (text : Str) : Option (List UInt8) := do
  let j ← parseJson text
  match ← j.fields ["arr".toList] with
  | [arr] => arr.array n Json.u8
  | _ => none

end Idx
