import Verif.Model.NGram

/-! The n-gram lookup again, counting the calls of `recursive_search`. `Props/Cost.lean` shows that without the count
this is `recursiveSearch`. -/

namespace Idx
variable {G : Type} [DecidableEq G] [RDefault G]

/-- `popularLoop` (src/ngram/index.rs:203-232) adding up the calls of its steps. -/
def popularLoopN (step : GramNode G → Except Panic ((Found G × Found G) × Nat)) :
    List (GramNode G) → Found G × Nat → Except Panic (Found G × Nat)
  | [], best => .ok best
  | c :: rest, best => do
    let ((found, repeatFound), k) ← step c
    popularLoopN step rest (bestResult (bestResult found repeatFound) best.1, best.2 + k)

/-- `ifNode` (src/ngram/index.rs:171, 236) with the number of calls. -/
def ifNodeN (node : Option (GramNode G)) (otherwise : Found G × Nat) (f : GramNode G → Except Panic (Found G × Nat)) :
    Except Panic (Found G × Nat) :=
  match node with
  | none => .ok otherwise
  | some u => f u

/-- `recursive_search` (src/ngram/index.rs:135-259) with the number of calls made: itself and all calls below. -/
def recursiveSearchN (n : Nat) (input : List G) (node : GramNode G) (previousNode : Option (GramNode G))
    (changes changesLimit : Nat) (weight : F32) (previousInput : List G) (index : Nat) :
    Except Panic (Found G × Nat) :=
  if index = n then .ok (some (previousInput, weight), 1)
  else if index > n then .error .indexOutOfBounds
  else do
    let userEntered := input.head?.bind fun gram => AMap.get node.items gram
    let userEnteredGram := userEntered.map (·.item)
    let nextInput := input.tail
    let mostLikely ← ifNodeN userEntered (none, 1) (fun u => do
        let previousInput ← setChecked previousInput index u.item
        let (found, k) ← recursiveSearchN n nextInput u (some node) changes changesLimit
          (F32.mul weight u.weight) previousInput (index + 1)
        .ok (bestResult found none, 1 + k))
    if _hlim : changes < changesLimit then do
      let changes1 ← succU8 changes
      let mostLikely ← popularLoopN (fun c => do
          let previousInput ← setChecked previousInput index c.item
          let (found, k) ← recursiveSearchN n nextInput c (some node) (changes + 1) changesLimit
            (F32.mul weight c.weight) previousInput (index + 1)
          let _changes2 ← succU8 changes1
          let (repeatFound, k') ← recursiveSearchN n input c (some node) (changes + 2) changesLimit
            (F32.mul weight c.weight) previousInput (index + 1)
          .ok ((found, repeatFound), k + k'))
        (node.byOcc.filter fun c => decide (some c.item ≠ userEnteredGram)) mostLikely
      ifNodeN (input.head?.bind (fun gram => previousNode.bind fun p => AMap.get p.items gram)) mostLikely
        (fun last => do
          let previousInput ← setChecked previousInput (index - 1) last.item
          let (found, k) ← recursiveSearchN n nextInput last none (changes + 1) changesLimit
            weight previousInput index
          .ok (bestResult found mostLikely.1, mostLikely.2 + k))
    else .ok mostLikely
  termination_by (changesLimit - changes, n - index)
  decreasing_by all_goals (first | (apply Prod.Lex.left; omega) | (apply Prod.Lex.right; omega))

/-- `search_gram` (src/ngram/index.rs:118-133) with the number of calls of `recursive_search`. -/
def GramIndex.searchGramN (ix : GramIndex G) (n : Nat) (query : List G) : Except Panic (Found G × Nat) :=
  match query with
  | [] => .ok (none, 0)
  | q :: rest =>
    match AMap.get ix.roots q with
    | none => .ok (none, 0)
    | some root =>
      let previous := (List.replicate n dflt).set 0 q
      if n / 3 < 256 then recursiveSearchN n rest root none 0 (n / 3) F32.one previous 1
      else .error .unwrapNone

/-- Body of `for gram in input` of `search` (src/ngram/index.rs:85-101) with the number of calls so far. -/
def GramIndex.searchStepN (ix : GramIndex G) (n : Nat) (st : (Ranker × List G) × Nat) (gram : G) :
    Except Panic ((Ranker × List G) × Nat) := do
  let ngram := shiftIn n st.1.2 gram
  let (r, k) ← ix.searchGramN n ngram
  match r with
  | none => .ok ((st.1.1, ngram), st.2 + k)
  | some (found, confidence) =>
    match AMap.get ix.data found with
    | none => .ok ((st.1.1, ngram), st.2 + k)
    | some data => .ok ((data.foldl (fun r p => r.add p confidence) st.1.1, ngram), st.2 + k)

/-- `search` (src/ngram/index.rs:82-103) with the number of calls of `recursive_search`. -/
def GramIndex.searchN (o : HashOrd) (ix : GramIndex G) (n : Nat) (input : List G) :
    Except Panic (List (Product × F32) × Nat) := do
  let st ← input.foldlM (ix.searchStepN n) ((([] : Ranker), List.replicate n dflt), 0)
  .ok (st.1.1.export o, st.2)

end Idx
