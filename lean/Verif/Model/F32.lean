/-
An exact model of IEEE-754 binary32 (`f32`): a bit pattern, with arithmetic defined by computing
the exact result and rounding to nearest, ties to even (the only mode Rust uses).

Every finite f32 is `± n * 2^-149` for a natural number `n`, so magnitudes are natural numbers
("units"). NaN results are the canonical quiet NaN; Rust leaves NaN payloads unspecified, nothing
in the crate looks at them.
-/
namespace Idx

/-- `f32`, as its bit pattern (`f32::to_bits`). -/
structure F32 where
  bits : UInt32
  deriving DecidableEq, Repr

namespace F32

/-- Decoded value of a bit pattern. `fin neg n` is `(-1)^neg * n * 2^-149`. -/
inductive Val where
  | nan
  | inf (neg : Bool)
  | fin (neg : Bool) (n : Nat)
  deriving DecidableEq, Repr

/-- Magnitude in units of 2^-149 of a non-negative finite pattern (sign bit removed):
biased exponent `e`, fraction `f`: `f` if `e = 0`, else `(2^23 + f) * 2^(e-1)`. -/
def magOfBits (b : Nat) : Nat :=
  if b / 2^23 = 0 then b else (2^23 + b % 2^23) * 2^(b / 2^23 - 1)

/-- Decode a bit pattern: sign bit 31, exponent bits 30-23, fraction bits 22-0. -/
def val (x : F32) : Val :=
  let b := x.bits.toNat
  let neg : Bool := decide (2^31 ≤ b)
  let r := b % 2^31
  if r < 255 * 2^23 then .fin neg (magOfBits r)
  else if r = 255 * 2^23 then .inf neg
  else .nan

/-- Number of low bits dropped when a magnitude with integer part `n` is stored with 24 significant bits. -/
def dropBits (n : Nat) : Nat := if n < 2^24 then 0 else Nat.log2 n - 23

/-- Round the exact magnitude `a / b` units to an f32-representable magnitude, nearest, ties to even. -/
def roundMag (a b : Nat) : Nat :=
  let k := dropBits (a / b)
  let d := b * 2^k
  let q := a / d
  let r := a % d
  let q := if 2 * r < d then q else if d < 2 * r then q + 1 else if q % 2 = 0 then q else q + 1
  q * 2^k

/-- Bit pattern (without sign) of a representable magnitude; overflow goes to infinity. -/
def bitsOfMag (n : Nat) : Nat :=
  let k := dropBits n
  let b := k * 2^23 + n / 2^k
  if b < 255 * 2^23 then b else 255 * 2^23

/-- Assemble a bit pattern. -/
def pack (neg : Bool) (b : Nat) : F32 := ⟨UInt32.ofNat (b + if neg then 2^31 else 0)⟩

def nan : F32 := ⟨0x7fc00000⟩
def inf (neg : Bool) : F32 := pack neg (255 * 2^23)

/-- The f32 nearest to `(-1)^neg * (a / b)` units. -/
def ofRatio (neg : Bool) (a b : Nat) : F32 := pack neg (bitsOfMag (roundMag a b))

/-- `1.0` is `2^149` units. -/
def one149 : Nat := 2^149

/-- `n as f32` for an unsigned integer. -/
def ofNat (n : Nat) : F32 := ofRatio false (n * one149) 1

/-- `a * b` -/
def mul (x y : F32) : F32 :=
  match x.val, y.val with
  | .nan, _ => nan
  | _, .nan => nan
  | .inf s, .inf t => inf (s != t)
  | .inf s, .fin t n => if n = 0 then nan else inf (s != t)
  | .fin s n, .inf t => if n = 0 then nan else inf (s != t)
  | .fin s m, .fin t n => ofRatio (s != t) (m * n) one149

/-- `a / b` -/
def div (x y : F32) : F32 :=
  match x.val, y.val with
  | .nan, _ => nan
  | _, .nan => nan
  | .inf _, .inf _ => nan
  | .inf s, .fin t _ => inf (s != t)
  | .fin s _, .inf t => pack (s != t) 0
  | .fin s m, .fin t n =>
    if n = 0 then (if m = 0 then nan else inf (s != t))
    else ofRatio (s != t) (m * one149) n

/-- `a + b` -/
def add (x y : F32) : F32 :=
  match x.val, y.val with
  | .nan, _ => nan
  | _, .nan => nan
  | .inf s, .inf t => if s = t then inf s else nan
  | .inf s, .fin _ _ => inf s
  | .fin _ _, .inf t => inf t
  | .fin s m, .fin t n =>
    if s = t then ofRatio s (m + n) 1
    else if m = n then pack false 0
    else if n < m then ofRatio s (m - n) 1
    else ofRatio t (n - m) 1

/-- Exact comparison `a < b` of decoded values (false as soon as one is NaN). Shared by f32 and f64. -/
def Val.lt : Val → Val → Bool
  | .nan, _ => false
  | _, .nan => false
  | .inf s, .inf t => s && !t
  | .inf s, .fin _ _ => s
  | .fin _ _, .inf t => !t
  | .fin s m, .fin t n =>
    decide ((if s then -(m : Int) else m) < (if t then -(n : Int) else n))

/-- `a < b`; `a > b` is `lt b a`. -/
def lt (x y : F32) : Bool := Val.lt x.val y.val

/-- `a == b` as floats. -/
def feq (x y : F32) : Bool :=
  match x.val, y.val with
  | .nan, _ => false
  | _, .nan => false
  | _, _ => !lt x y && !lt y x

/-- `a.partial_cmp(b)`; `none` iff one of them is NaN. -/
def partialCmp (x y : F32) : Option Ordering :=
  match x.val, y.val with
  | .nan, _ => none
  | _, .nan => none
  | _, _ => some (if lt x y then .lt else if lt y x then .gt else .eq)

/-- `a.partial_cmp(b).unwrap_or(Ordering::Equal)` -/
def cmpOrEq (x y : F32) : Ordering := (partialCmp x y).getD .eq

/-- `x as usize` (saturating, truncating towards zero, NaN to 0) on a word of `w` bits. -/
def toUsize (w : Nat) (x : F32) : Nat :=
  match x.val with
  | .nan => 0
  | .inf s => if s then 0 else 2^w - 1
  | .fin s n => if s then 0 else min (n / one149) (2^w - 1)

/-- The literal `1.0`. -/
def one : F32 := ⟨0x3f800000⟩
/-- The literal `0.0`. -/
def zero : F32 := ⟨0⟩
/-- The literal `0.8`: the f32 nearest to 8/10. -/
def zeroPointEight : F32 := ofRatio false (8 * one149) 10

/-- `x.to_be_bytes()` -/
def toBeBytes (x : F32) : List UInt8 :=
  [(x.bits >>> 24).toUInt8, (x.bits >>> 16).toUInt8, (x.bits >>> 8).toUInt8, x.bits.toUInt8]

/-- `f32::from_be_bytes([a, b, c, d])` -/
def ofBeBytes (a b c d : UInt8) : F32 :=
  ⟨(a.toUInt32 <<< 24) ||| (b.toUInt32 <<< 16) ||| (c.toUInt32 <<< 8) ||| d.toUInt32⟩

end F32
end Idx
