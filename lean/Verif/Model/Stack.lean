import Verif.Model.Nodes

/-! The decoder with a bounded call stack. `GramNode::deserialize_arena` calls itself once per child
(src/serialize/nodes.rs:30-54, through `Vec<&T>::deserialize_arena`, src/serialize/collections.rs:51-70), so the
nesting of a file's tree is the nesting of the calls. Only these recursive calls are counted: every other decoder
nests a fixed number of calls. One unit of `stack` is one `GramNode::deserialize_arena` frame together with the
`Vec` frame that called it. -/

namespace Idx

/-- `GramNode::deserialize_arena` (src/serialize/nodes.rs:30-54) with room for `stack` nested calls of itself. -/
def deNodeIn (t : Target) : Nat → De (GramNode Char)
  | 0 => De.lift (.panic .stackOverflow)
  | stack + 1 => do
    let item ← deChar
    let weight ← deF32
    let byOcc ← deVec t (deNodeIn t stack)
    pure (.mk item weight byOcc)

/-- `GramIndex::deserialize` (src/serialize/nodes.rs:70-103) with room for `stack` nested node calls. -/
def deGramIndexIn (t : Target) (n stack : Nat) : De (GramIndex Char) := do
  let container ← deContainer t
  let roots ← deMap t deChar (deNodeIn t stack)
  let len ← deLen t "data"
  let entries ← De.times len (dePosting t n container)
  pure { container, roots, data := AMap.collect entries }

/-- `deserialize_all` (src/serialize/all_indexes.rs:22-34) with room for `stack` nested node calls. -/
def deserializeAllIn (t : Target) (n stack : Nat) (input : Bytes) : Res (GramIndex Char × Classic) := do
  let (input, ngram) ← deGramIndexIn t n stack input
  let (_, classic) ← deClassic t ngram.container input
  pure (ngram, classic)

end Idx
