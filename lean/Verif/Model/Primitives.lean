import Verif.Model.Basic
import Verif.Model.F32
/-
Model of src/serialize/primitives.rs.
A serialiser `fn serialize<Out: FnMut(u8)>(&self, output: &mut Out)` becomes the list of bytes it
passes to `output`, in order.
-/
namespace Idx

/-- The `loop` of `u64::serialize` (src/serialize/primitives.rs:52-69). `fuel` bounds the number of
iterations; ten are always enough (64 bits, 7 per byte) and `serU64` supplies ten. -/
def serU64Loop : Nat → UInt64 → Bytes
  | 0, _ => []
  | fuel + 1, input =>
    let toEncode : UInt8 := input.toUInt8 &&& 0x7f
    let input := input >>> 7
    if input == 0 then [toEncode]
    else (toEncode ||| 0x80) :: serU64Loop fuel input

/-- `u64::serialize` (src/serialize/primitives.rs:52-69). -/
def serU64 (v : UInt64) : Bytes := serU64Loop 10 v

/-- The `while` loop of `u64::deserialize` (src/serialize/primitives.rs:76-97): returns the remaining
input, `out` and `eaten` when the loop is left, `none` for the `return None` at line 95. -/
def deU64Loop : Bytes → UInt64 → Nat → Option (Bytes × UInt64 × Nat)
  | [], out, eaten => some ([], out, eaten)
  | b :: rest, out, eaten =>
    if eaten < 9 then
      let moreBytes : Bool := b &&& 0x80 == 0x80
      let byte := b <<< 1
      let out := out >>> 7
      let byte := byte.toUInt64 <<< (64 - 8)
      let out := out ||| byte
      let eaten := eaten + 1
      if moreBytes == false then some (rest, out, eaten)
      else if eaten > 10 then none
      else deU64Loop rest out eaten
    else some (b :: rest, out, eaten)

/-- `u64::deserialize` (src/serialize/primitives.rs:71-116). -/
def deU64 : De UInt64 := fun input =>
  match deU64Loop input 0 0 with
  | none => .none
  | some (input, out, eaten) =>
    if eaten = 9 then
      let out := out >>> 1
      match input with
      | [] => .none
      | b :: input =>
        let out := if b == 1 then out ||| 0x8000000000000000 else out
        .ok (input, out)
    else if eaten = 0 then .none
    else
      let resetShift := 64 - eaten * 7
      .ok (input, out >>> (UInt64.ofNat resetShift))

/-- `usize::serialize` (src/serialize/primitives.rs:118-122): `(*self as u64).serialize(output)`.
A `usize` is a `Nat` below `2^usizeBits` of the writing machine, so the cast is exact for any
value that machine can hold. -/
def serUsize (v : Nat) : Bytes := serU64 (UInt64.ofNat v)

/-- `usize::deserialize` (src/serialize/primitives.rs:124-130): `v.try_into().ok()?`. -/
def deUsize (t : Target) : De Nat := do
  let v ← deU64
  if v.toNat < 2 ^ t.usizeBits then pure v.toNat else De.fail

/-- `u32::serialize` (src/serialize/primitives.rs:132-136). -/
def serU32 (v : UInt32) : Bytes := serU64 v.toUInt64

/-- `u32::deserialize` (src/serialize/primitives.rs:138-144). -/
def deU32 : De UInt32 := do
  let v ← deU64
  if v.toNat < 2 ^ 32 then pure v.toUInt32 else De.fail

/-- `char::serialize` (src/serialize/primitives.rs:3-8). -/
def serChar (c : Char) : Bytes := serU32 c.val

/-- `char::from_u32` (std): `None` for surrogates and values above 0x10FFFF. -/
def charFromU32 (v : UInt32) : Option Char :=
  if h : v.isValidChar then some ⟨v, h⟩ else none

/-- `char::deserialize` (src/serialize/primitives.rs:10-16). -/
def deChar : De Char := do
  let v ← deU32
  De.lift (Res.ofOption (charFromU32 v))

/-- `f32::serialize` (src/serialize/primitives.rs:18-24). -/
def serF32 (x : F32) : Bytes := x.toBeBytes

/-- `f32::deserialize` (src/serialize/primitives.rs:26-37). -/
def deF32 : De F32 := fun input =>
  match input with
  | a :: b :: c :: d :: rest => .ok (rest, F32.ofBeBytes a b c d)
  | _ => .none

/-- `bool::serialize` (src/serialize/primitives.rs:39-43). -/
def serBool (b : Bool) : Bytes := [if b then 1 else 0]

/-- `bool::deserialize` (src/serialize/primitives.rs:45-50). -/
def deBool : De Bool := fun input =>
  match input with
  | [] => .none
  | b :: rest => .ok (rest, b != 0)

/-- `u8::serialize` (src/serialize/primitives.rs:146-150). -/
def serU8 (b : UInt8) : Bytes := [b]

/-- `u8::deserialize` (src/serialize/primitives.rs:151-156). -/
def deU8 : De UInt8 := fun input =>
  match input with
  | [] => .none
  | b :: rest => .ok (rest, b)

end Idx
