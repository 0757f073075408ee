import Verif.Model.Nodes
/-
Model of tests/index_size_by_ngram.rs and tests/index_size_pr_product.rs, which write tables of the sizes of index files.
The text of a table is not modelled, only the numbers in its lines.
-/
namespace Idx

/-- `do_test::<N>` (tests/index_size_by_ngram.rs:18-44) and the body of the loop of the other test
(tests/index_size_pr_product.rs:35-60): the size of the file in thousands of bytes. No trial search is made. -/
def sizeInKb (t : Target) (o : HashOrd) (lower : Char → List Char) (parse : Str → Option F32) (n : Nat)
    (input : List RawProduct) : Res F32 := do
  let (ix, classic) ← buildAll t o lower parse n input
  pure (F32.div (F32.ofNat (serializeAll o ix classic).length) (F32.ofNat 1000))

/-- The n-gram sizes of tests/index_size_by_ngram.rs:51-58. -/
def testedSizes : List Nat := [2, 3, 4, 5, 6, 7, 8, 9]

/-- `index_size_by_ngram` (tests/index_size_by_ngram.rs:48-64): the lines of the table. Every run has hash tables of its own,
so `o` gives their orders for each n-gram size. -/
def sizeByNgram (t : Target) (o : Nat → HashOrd) (lower : Char → List Char) (parse : Str → Option F32)
    (input : List RawProduct) : List Nat → Res (List (Nat × F32))
  | [] => .ok []
  | n :: sizes => do
    let kb ← sizeInKb t (o n) lower parse n input
    let rest ← sizeByNgram t o lower parse input sizes
    pure ((n, kb) :: rest)

/-- The amounts of tests/index_size_pr_product.rs:21. -/
def testedAmounts : List Nat := [1, 5, 10, 20, 40, 80, 160, 320]

/-- `index_size_pr_product` (tests/index_size_pr_product.rs:20-66): the lines of the table. `shuffled` is the catalogue as
`shuffle` left it for each amount, of which `truncate` keeps the first. -/
def sizePrProduct (t : Target) (o : Nat → HashOrd) (lower : Char → List Char) (parse : Str → Option F32)
    (shuffled : Nat → List RawProduct) : List Nat → Res (List (Nat × F32))
  | [] => .ok []
  | amount :: amounts => do
    let products := (shuffled amount).take amount
    let kb ← sizeInKb t (o amount) lower parse 5 products
    let rest ← sizePrProduct t o lower parse shuffled amounts
    pure ((products.length, kb) :: rest)

end Idx
