/-
Shared vocabulary of the model: bytes, outcomes of Rust calls, the target machine,
hash-table iteration order.
-/
namespace Idx

/-- A byte slice `&[u8]` / `Vec<u8>`. -/
abbrev Bytes := List UInt8

/-- A Rust `String`/`&str`, as its sequence of Unicode scalar values (`str::chars`). -/
abbrev Str := List Char

/-- Why a modelled Rust call panics. -/
inductive Panic where
  /-- range index `&input[..len]` past the end (src/serialize/collections.rs:124) -/
  | sliceOutOfRange
  /-- `assert!(len == N)` (src/serialize/collections.rs:190, 204) -/
  | assertFailed
  /-- arithmetic overflow with overflow checks enabled -/
  | overflow
  /-- `Option::unwrap`/`Result::unwrap` on `None`/`Err` -/
  | unwrapNone
  /-- `v[i]` out of bounds -/
  | indexOutOfBounds
  /-- `with_capacity` of more elements than can be reserved: "capacity overflow", or an abort by the allocator -/
  | capacity
  /-- explicit `panic!` -/
  | explicit
  /-- the call stack is used up; only in the stack-limited decoder of Model/Stack.lean -/
  | stackOverflow
  deriving DecidableEq, Repr

/-- Outcome of a Rust function returning `Option<T>`: `Some`, `None`, or a panic. -/
inductive Res (α : Type u) where
  | ok (a : α)
  | none
  | panic (why : Panic)
  deriving DecidableEq, Repr

namespace Res

/-- A call that either returns or panics. -/
def ofExcept : Except Panic α → Res α
  | .ok a => .ok a
  | .error why => .panic why

/-- `?` / sequencing on outcomes. -/
def bind (x : Res α) (f : α → Res β) : Res β :=
  match x with
  | .ok a => f a
  | .none => .none
  | .panic w => .panic w

instance : Monad Res where
  pure := .ok
  bind := Res.bind

/-- `option?` : an `Option` used with `?` inside a function returning `Option`. -/
def ofOption : Option α → Res α
  | some a => .ok a
  | Option.none => .none

/-- `option.unwrap()`. -/
def unwrapOption : Option α → Res α
  | some a => .ok a
  | Option.none => .panic .unwrapNone

/-- `v[i]` on a slice. -/
def index (l : List α) (i : Nat) : Res α :=
  match l[i]? with
  | some a => .ok a
  | Option.none => .panic .indexOutOfBounds

@[simp] theorem bind_ok (a : α) (f : α → Res β) : (Res.ok a >>= f) = f a := rfl
@[simp] theorem bind_none (f : α → Res β) : ((Res.none : Res α) >>= f) = Res.none := rfl
@[simp] theorem bind_panic (w) (f : α → Res β) : ((Res.panic w : Res α) >>= f) = Res.panic w := rfl
@[simp] theorem pure_eq (a : α) : (pure a : Res α) = Res.ok a := rfl
@[simp] theorem ofOption_some (a : α) : ofOption (some a) = .ok a := rfl
@[simp] theorem ofOption_none : ofOption (Option.none : Option α) = .none := rfl
@[simp] theorem unwrapOption_some (a : α) : unwrapOption (some a) = .ok a := rfl
@[simp] theorem unwrapOption_none :
    unwrapOption (Option.none : Option α) = .panic .unwrapNone := rfl

theorem bind_eq_ok {x : Res α} {f : α → Res β} {b : β} :
    (x >>= f) = .ok b ↔ ∃ a, x = .ok a ∧ f a = .ok b := by
  cases x <;> simp

theorem ofOption_eq_ok {x : Option α} {a : α} : ofOption x = .ok a ↔ x = some a := by
  cases x <;> simp

theorem bind_eq_panic {x : Res α} {f : α → Res β} {w} :
    (x >>= f) = .panic w ↔ x = .panic w ∨ ∃ a, x = .ok a ∧ f a = .panic w := by
  cases x <;> simp

end Res

/-- The machine a deserialiser runs on: `usize` width (32 on wasm32, 64 natively), whether arithmetic overflow
panics (debug builds) or wraps (the release profile, Cargo.toml:24-30), and whether reserving room for a number of
elements up front succeeds. Nothing is assumed about `reserves`; `what` names the `with_capacity` call. -/
structure Target where
  usizeBits : Nat
  overflowChecks : Bool
  reserves : (what : String) → Nat → Bool

/-- A wasm32 release build with plenty of memory, for examples. -/
abbrev Target.wasm32 : Target := ⟨32, false, fun _ _ => true⟩
/-- A native debug build with plenty of memory, for examples. -/
abbrev Target.debug64 : Target := ⟨64, true, fun _ _ => true⟩

/-- The two word sizes the crate is built for (build_search.sh / build_indexer.sh: wasm32; main.rs: native). -/
def Target.Real (t : Target) : Prop := t.usizeBits = 32 ∨ t.usizeBits = 64

/-- A deserialiser `fn deserialize(input: &[u8]) -> Option<(&[u8], T)>` (src/serialize/traits.rs:7-12):
bytes in, rest of the bytes and value out. -/
def De (α : Type) := Bytes → Res (Bytes × α)

namespace De

/-- `let (input, x) = x::deserialize(input)?; ...` -/
def bind (d : De α) (f : α → De β) : De β := fun input =>
  (d input) >>= fun (rest, a) => f a rest

instance : Monad De where
  pure a := fun input => .ok (input, a)
  bind := De.bind

/-- `None` at this point. -/
def fail : De α := fun _ => .none

/-- `x?` for an `Option` computed from already decoded data. -/
def lift (o : Res α) : De α := fun input => o >>= fun a => .ok (input, a)

/-- `Vec::with_capacity(n)`, `AHashMap::with_capacity(n)`. -/
def reserve (t : Target) (what : String) (n : Nat) : De Unit :=
  lift (if t.reserves what n then .ok () else .panic .capacity)

theorem bind_apply (d : De α) (f : α → De β) (input : Bytes) :
    (d >>= f) input = (d input >>= fun p => f p.2 p.1) := rfl
@[simp] theorem pure_apply (a : α) (input : Bytes) : (pure a : De α) input = .ok (input, a) := rfl
@[simp] theorem fail_apply (input : Bytes) : (fail : De α) input = .none := rfl
@[simp] theorem lift_apply (o : Res α) (input : Bytes) :
    lift o input = (o >>= fun a => .ok (input, a)) := rfl

/-- If `d` on `input` returns `a` leaving `rest`, then `d >>= f` continues with `f a rest`. -/
theorem bind_of_ok {d : De α} {f : α → De β} {input rest : Bytes} {a : α}
    (h : d input = .ok (rest, a)) : (d >>= f) input = f a rest := by
  rw [bind_apply, h]; rfl

/-- `for _ in 0..n { item = d()?; out.push(item) }` -/
def times : Nat → De α → De (List α)
  | 0, _ => pure []
  | n + 1, d => do
      let a ← d
      let as ← times n d
      pure (a :: as)

/-- `for id in i..i+n { item = d(id)?; out.push(item) }` -/
def timesFrom : Nat → Nat → (Nat → De α) → De (List α)
  | 0, _, _ => pure []
  | n + 1, i, d => do
      let a ← d i
      let as ← timesFrom n (i + 1) d
      pure (a :: as)

end De

/-! ## Hash tables

`AHashMap<K, V>` is modelled by an association list with insertion at the end.
The order in which a hash table is *iterated* is unspecified (ahash is randomly keyed), so
every iteration goes through a `HashOrd`, which may return any permutation, and may
return a different one at every iteration site (`site` may be any value). -/

/-- An arbitrary but fixed choice of iteration order for every hash-table traversal. -/
structure HashOrd where
  order : {σ : Type} → (site : σ) → {α : Type} → List α → List α
  perm : ∀ {σ : Type} (site : σ) {α : Type} (l : List α), (order site l).Perm l

/-- Hash tables that iterate in insertion order. -/
def HashOrd.ident : HashOrd := ⟨fun _ _ l => l, fun _ _ l => List.Perm.refl l⟩

/-- Hash tables that iterate in reverse insertion order. -/
def HashOrd.rev : HashOrd := ⟨fun _ _ l => l.reverse, fun _ _ l => List.reverse_perm l⟩

/-- `AHashMap<K, V>`: association list, keys distinct (`AMap.Wf`). -/
abbrev AMap (K V : Type) := List (K × V)

namespace AMap
variable {K V : Type} [DecidableEq K]

/-- `map.get(&k)` -/
def get (m : AMap K V) (k : K) : Option V :=
  match m with
  | [] => none
  | (k', v) :: rest => if k' = k then some v else get rest k

/-- `map.entry(k).and_modify(f).or_insert(v)` -/
def upsert (m : AMap K V) (k : K) (f : V → V) (v : V) : AMap K V :=
  match m with
  | [] => [(k, v)]
  | (k', v') :: rest => if k' = k then (k', f v') :: rest else (k', v') :: upsert rest k f v

/-- `map.insert(k, v)` (an existing key keeps its slot and gets the new value) -/
def insert (m : AMap K V) (k : K) (v : V) : AMap K V := upsert m k (fun _ => v) v

/-- `map.remove(&k)` -/
def remove (m : AMap K V) (k : K) : AMap K V :=
  match m with
  | [] => []
  | (k', v') :: rest => if k' = k then rest else (k', v') :: remove rest k

/-- `map.keys()` up to order -/
def keys (m : AMap K V) : List K := m.map (·.1)

/-- Distinct keys: what makes an association list a hash table. -/
def Wf (m : AMap K V) : Prop := (m.map (·.1)).Nodup

/-- Collecting `(k, v)` pairs into a fresh map, later pairs overwriting earlier ones. -/
def collect (l : List (K × V)) : AMap K V := l.foldl (fun m p => insert m p.1 p.2) []

end AMap

/-- `AHashSet<T>::insert` on the set-as-list. -/
def setInsert [DecidableEq α] (s : List α) (a : α) : List α := if a ∈ s then s else s ++ [a]

/-- `iter.collect::<AHashSet<_>>()` -/
def setCollect [DecidableEq α] (l : List α) : List α := l.foldl setInsert []

/-- Stable sort: `slice::sort_by`, with `le a b` meaning `cmp(a, b) != Greater`.
Simplification: Rust's merge sort is replaced by insertion sort; for a total preorder every
stable sorting algorithm returns the same list (`Verif.Lemmas.Sort: stableSort_unique`). -/
def insertSorted (le : α → α → Bool) (a : α) : List α → List α
  | [] => [a]
  | b :: l => if le a b then a :: b :: l else b :: insertSorted le a l

@[inherit_doc insertSorted]
def stableSort (le : α → α → Bool) : List α → List α
  | [] => []
  | a :: l => insertSorted le a (stableSort le l)

end Idx
