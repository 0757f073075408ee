import Verif.Model.Nodes
/-
Model of `test_gram_popularity` (src/ngram/index.rs:316-354), a test that writes a table of how often n-grams occur. The
texts it prints are not modelled, only their numbers. Tests are built with overflow checks.
-/
namespace Idx

/-- `v += 1` on a counter of so many bits, with overflow checks. -/
def countUp (bits v : Nat) : Except Panic Nat := if v + 1 < 2 ^ bits then .ok (v + 1) else .error .overflow

/-- `products_for_gram.entry(len).and_modify(|v| *v += 1).or_insert(1u32)` (src/ngram/index.rs:330-333). -/
def countEntry (m : AMap Nat Nat) (len : Nat) : Except Panic (AMap Nat Nat) :=
  match AMap.get m len with
  | some v => do
    let v ← countUp 32 v
    .ok (AMap.insert m len v)
  | none => .ok (AMap.insert m len 1)

/-- `if products.len() == 1 && gram.iter().copied().any(char::is_whitespace) { ones_with_space += 1 }`
(src/ngram/index.rs:327-329). `ones_with_space` is an `i32`, never negative. -/
def countSingle (isSpace : Char → Bool) (ones : Nat) (e : List Char × List Product) : Except Panic Nat :=
  if e.2.length = 1 ∧ e.1.any isSpace then countUp 31 ones else .ok ones

/-- Body of `for (gram, products) in index.data` (src/ngram/index.rs:326-334). -/
def popularityStep (isSpace : Char → Bool) (st : Nat × AMap Nat Nat) (e : List Char × List Product) :
    Except Panic (Nat × AMap Nat Nat) := do
  let ones ← countSingle isSpace st.1 e
  let table ← countEntry st.2 e.2.length
  .ok (ones, table)

/-- `test_gram_popularity` (src/ngram/index.rs:318-354) on an index: the two numbers printed and the lines of the table.
`isSpace` is `char::is_whitespace`. -/
def popularity (o : HashOrd) (isSpace : Char → Bool) (ix : GramIndex Char) : Except Panic ((Nat × Nat) × List (Nat × Nat)) := do
  let st ← (o.order "data" ix.data).foldlM (popularityStep isSpace) (0, [])
  let singles := (AMap.get st.2 1).getD 0
  let table := stableSort (fun a b => decide (a.1 ≤ b.1)) (o.order "products for gram" st.2)
  .ok ((st.1, singles), table)

end Idx
