import Verif.Model.F32
import Verif.Model.Json
/-
Model of `str::parse::<f32>` (core::num::dec2flt), which `to_intermediate` uses on prices (src/data/raw_parser.rs:80-83).
The standard library is not in the repository; this follows its documentation: an optional sign, then `inf`, `infinity`
or `nan` in any case, or digits with at most one point and at least one digit, then an optional exponent; the result is
the f32 nearest to the number written, ties to even. Simplified: the real parser stops accumulating exponents of more
than six digits, which only differs for texts of several hundred thousand digits.
-/
namespace Idx

/-- The number written by digits. -/
def digitsValue (s : Str) : Nat := s.foldl (fun n c => 10 * n + (c.toNat - 48)) 0

/-- `parse_scientific`: what may follow the digits. -/
def floatExponent : Str → Option Int
  | [] => some 0
  | c :: r =>
    if c = 'e' ∨ c = 'E' then
      let ds := spanDigits (parseSign r).2
      if ds.1 = [] ∨ ds.2 ≠ [] then none
      else some (if (parseSign r).1 = ['-'] then -(digitsValue ds.1 : Int) else digitsValue ds.1)
    else none

/-- The digits after a point, and the rest. -/
def floatFraction : Str → Str × Str
  | '.' :: r => spanDigits r
  | r => ([], r)

/-- `parse_number`: digits `d` and exponent `e`, for the number `d * 10^e`. -/
def floatNumber (s : Str) : Option (Nat × Int) :=
  let int := spanDigits s
  let frac := floatFraction int.2
  if int.1 = [] ∧ frac.1 = [] then none
  else (floatExponent frac.2).map fun e => (digitsValue (int.1 ++ frac.1), e - frac.1.length)

/-- `parse_inf_nan` -/
def floatName (neg : Bool) (s : Str) : Option F32 :=
  let s := s.map Char.toLower
  if s = "inf".toList ∨ s = "infinity".toList then some (F32.inf neg)
  else if s = "nan".toList then some (F32.pack neg 0x7fc00000)
  else none

/-- The f32 nearest to `(-1)^neg * d * 10^e`. -/
def floatOf (neg : Bool) (d : Nat) (e : Int) : F32 :=
  F32.ofRatio neg (d * 10 ^ e.toNat * F32.one149) (10 ^ (-e).toNat)

/-- `s.parse::<f32>().ok()` -/
def parseF32 (s : Str) : Option F32 :=
  let neg := decide ((parseSign s).1 = ['-'])
  match floatNumber (parseSign s).2 with
  | some (d, e) => some (floatOf neg d e)
  | none => floatName neg (parseSign s).2

end Idx
