import Verif.Model.Primitives
/-
Model of src/serialize/collections.rs and src/serialize/sequential_array.rs.
Memory is only modelled where a length claimed by the file is reserved up front (`with_capacity(len)`).
-/
namespace Idx

/-! ## Vectors (src/serialize/collections.rs:11-49) -/

/-- `Vec<&T>::serialize`, `&Vec<T>::serialize`, `Vec<usize>::serialize`
(src/serialize/collections.rs:11-36): length, then the items. -/
def serVec (ser : α → Bytes) (l : List α) : Bytes := serUsize l.length ++ l.flatMap ser

/-- `usize::deserialize(input)?` followed by `with_capacity(len)`; `what` names the place. -/
def deLen (t : Target) (what : String) : De Nat := do
  let len ← deUsize t
  De.reserve t what len
  pure len

/-- `Vec<T>::deserialize` (src/serialize/collections.rs:38-49) and
`Vec<&T>::deserialize_arena` (lines 51-70). -/
def deVec (t : Target) (de : De α) : De (List α) := do
  let len ← deLen t "vec"
  De.times len de

/-! ## Strings (src/serialize/collections.rs:72-128) -/

/-- `str::bytes`: UTF-8. -/
def utf8 (s : Str) : Bytes := s.flatMap String.utf8EncodeChar

/-- `str::len`: number of UTF-8 bytes. -/
def byteLen (s : Str) : Nat := (s.map Char.utf8Size).sum

/-- `String::from_utf8(bytes).ok()` (std): core Lean's verified UTF-8 decoder. -/
def fromUtf8 (bs : Bytes) : Option Str :=
  (ByteArray.utf8Decode? ⟨bs.toArray⟩).map Array.toList

/-- `&str::serialize`, `String::serialize` (src/serialize/collections.rs:72-85). -/
def serStr (s : Str) : Bytes := serUsize (byteLen s) ++ utf8 s

/-- `String::deserialize` (src/serialize/collections.rs:121-128). `&input[..len]` panics when
fewer than `len` bytes are left. -/
def deStr (t : Target) : De Str := do
  let len ← deUsize t
  fun input =>
    if len ≤ input.length then
      match fromUtf8 (input.take len) with
      | some s => .ok (input.drop len, s)
      | none => .none
    else .panic .sliceOutOfRange

/-- Loop of `limit_string_len` (src/serialize/collections.rs:87-102) over `input.char_indices()`.
`offset` is the byte offset of the head of `rest`, `seen` the characters before it, `last` the
prefix up to the last candidate space (`&input[0..viable]`), if any. The result is the prefix
that Rust returns as a slice. -/
def limitLoop (maxLen : Nat) (offset : Nat) (seen : Str) (last : Option Str) : Str → Str
  | [] => seen
  | c :: rest =>
    if offset > maxLen then
      match last with
      | some viable => viable
      | none => seen
    else
      limitLoop maxLen (offset + c.utf8Size) (seen ++ [c])
        (if c = ' ' then some seen else last) rest

/-- `limit_string_len` (src/serialize/collections.rs:87-102). -/
def limitStringLen (input : Str) (maxLen : Nat) : Str := limitLoop maxLen 0 [] none input

/-- `serialize_string_with_limit` (src/serialize/collections.rs:104-106). -/
def serStrWithLimit (input : Str) (maxLen : Nat) : Bytes := serStr (limitStringLen input maxLen)

/-! ## Hash maps (src/serialize/collections.rs:130-176) -/

/-- `AHashMap<K, V>::serialize` (src/serialize/collections.rs:130-138). The entries are passed in
the order the hash table iterates them. -/
def serMapEntries (serK : K → Bytes) (serV : V → Bytes) (entries : List (K × V)) : Bytes :=
  serUsize entries.length ++ entries.flatMap fun p => serK p.1 ++ serV p.2

/-- `AHashMap<K, V>::serialize` with the iteration order chosen by `o`. -/
def serMap {σ : Type} (o : HashOrd) (site : σ) (serK : K → Bytes) (serV : V → Bytes) (m : AMap K V) :
    Bytes :=
  serMapEntries serK serV (o.order site m)

/-- `AHashMap<K, V>::deserialize` and `deserialize_arena` (src/serialize/collections.rs:140-176):
read `len` pairs, `insert`ing each (a repeated key overwrites). -/
def deMap [DecidableEq K] (t : Target) (deK : De K) (deV : De V) : De (AMap K V) := do
  let len ← deLen t "map"
  let entries ← De.times len (do
    let k ← deK
    let v ← deV
    pure (k, v))
  pure (AMap.collect entries)

/-! ## Fixed-size arrays (src/serialize/collections.rs:178-213) -/

/-- `[T; N]::serialize` (src/serialize/collections.rs:178-185); the array is a list of length `N`. -/
def serArray (ser : α → Bytes) (l : List α) : Bytes := serU64 (UInt64.ofNat l.length) ++ l.flatMap ser

/-- `[T; N]::deserialize` (src/serialize/collections.rs:187-213): `assert!(len == N)`. -/
def deArray (t : Target) (n : Nat) (de : De α) : De (List α) := do
  let len ← deUsize t
  if len = n then De.times n de else De.lift (.panic .assertFailed)

/-! ## Sequential arrays (src/serialize/sequential_array.rs) -/

/-- Loop of `sequential_array::serialize` (src/serialize/sequential_array.rs:13-22) on the sorted
content, for `T = usize` (its only use, src/data/product.rs:133). `item - previous` cannot
underflow on sorted content. -/
def serDeltas (previous : Option Nat) : List Nat → Bytes
  | [] => []
  | item :: rest =>
    (match previous with
     | some p => serUsize (item - p)
     | none => serUsize item) ++ serDeltas (some item) rest

/-- `sequential_array::serialize` (src/serialize/sequential_array.rs:3-23). -/
def serSeq (input : List Nat) : Bytes :=
  let content := stableSort (fun a b => decide (a ≤ b)) input
  serUsize content.length ++ serDeltas none content

/-- `parsed + previous` on `usize` (src/serialize/sequential_array.rs:38): panics with overflow checks,
wraps without. -/
def addUsize (t : Target) (a b : Nat) : Res Nat :=
  if a + b < 2 ^ t.usizeBits then .ok (a + b)
  else if t.overflowChecks then .panic .overflow
  else .ok ((a + b) % 2 ^ t.usizeBits)

/-- Loop of `sequential_array::deserialize` (src/serialize/sequential_array.rs:31-44). -/
def deDeltas (t : Target) : Nat → Option Nat → De (List Nat)
  | 0, _ => pure []
  | n + 1, previous => do
    let parsed ← deUsize t
    let item ← (match previous with
      | some p => De.lift (addUsize t parsed p)
      | none => pure parsed)
    let rest ← deDeltas t n (some item)
    pure (item :: rest)

/-- `sequential_array::deserialize` (src/serialize/sequential_array.rs:25-47). -/
def deSeq (t : Target) : De (List Nat) := do
  let len ← deLen t "sequence"
  deDeltas t len none

end Idx
