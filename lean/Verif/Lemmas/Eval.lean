import Verif.Lemmas.Search
import Verif.Model.Nodes
/-! Structurally recursive forms of `immutalize` and `recursiveSearch`, equal to the model's, which the kernel can
evaluate. Used only to check concrete counterexamples. -/
set_option linter.unusedSectionVars false
namespace Idx
variable {G : Type} [DecidableEq G] [RDefault G]

/-- Depth of a mutable node is at most the given number. -/
def MNode.shallow : Nat → MNode G → Bool
  | 0, _ => false
  | k + 1, m => m.items.all (MNode.shallow k)

/-- `immutalize`, to a given depth. -/
def immutalizeF (o : HashOrd) : Nat → List G → Nat → MNode G → GramNode G
  | 0, _, _, m => .mk m.item F32.zero []
  | k + 1, path, parentOcc, m =>
    .mk m.item (occurancesToWeight parentOcc m.occ)
      (stableSort (fun a b => (GramNode.cmp a b).swap != .gt)
        (o.order (path ++ [m.item]) (m.items.map (immutalizeF o k (path ++ [m.item]) m.occ))))

theorem immutalizeF_eq (o : HashOrd) : ∀ (k : Nat) (path : List G) (p : Nat) (m : MNode G), MNode.shallow k m = true →
    immutalizeF o k path p m = immutalize o path p m := by
  intro k
  induction k with
  | zero => intro path p m h; simp [MNode.shallow] at h
  | succ k ih =>
    intro path p m h
    cases m with
    | mk i occ l =>
      rw [immutalize, immutalizeF]
      simp only [MNode.item_mk, MNode.occ_mk, MNode.items_mk]
      have e : l.map (immutalizeF o k (path ++ [i]) occ) = l.attach.map fun x => immutalize o (path ++ [i]) occ x.val := by
        have := List.attach_map_val (l := l) (f := immutalize o (path ++ [i]) occ)
        refine Eq.trans ?_ this.symm
        apply List.map_congr_left
        intro c hc
        exact ih _ _ _ (List.all_eq_true.1 h c hc)
      rw [e]

/-- `recursiveSearch`, to a given depth of recursion. -/
def recursiveSearchF (n changesLimit : Nat) : Nat → List G → GramNode G → Option (GramNode G) → Nat → F32 → List G → Nat →
    Except Panic (Found G)
  | 0, _, _, _, _, _, _, _ => .error .explicit
  | k + 1, input, node, previousNode, changes, weight, previousInput, index =>
    if index = n then .ok (some (previousInput, weight))
    else if index > n then .error .indexOutOfBounds
    else do
      let userEntered := input.head?.bind fun gram => AMap.get node.items gram
      let userEnteredGram := userEntered.map (·.item)
      let mostLikely ← ifNode userEntered none (fun u => do
          let previousInput ← setChecked previousInput index u.item
          let found ← recursiveSearchF n changesLimit k input.tail u (some node) changes
            (F32.mul weight u.weight) previousInput (index + 1)
          .ok (bestResult found none))
      if changes < changesLimit then do
        let changes1 ← succU8 changes
        let mostLikely ← popularLoop (fun c => do
            let previousInput ← setChecked previousInput index c.item
            let found ← recursiveSearchF n changesLimit k input.tail c (some node) (changes + 1)
              (F32.mul weight c.weight) previousInput (index + 1)
            let _changes2 ← succU8 changes1
            let repeatFound ← recursiveSearchF n changesLimit k input c (some node) (changes + 2)
              (F32.mul weight c.weight) previousInput (index + 1)
            .ok (found, repeatFound))
          (node.byOcc.filter fun c => decide (some c.item ≠ userEnteredGram)) mostLikely
        ifNode (input.head?.bind (fun gram => previousNode.bind fun p => AMap.get p.items gram)) mostLikely
          (fun last => do
            let previousInput ← setChecked previousInput (index - 1) last.item
            let found ← recursiveSearchF n changesLimit k input.tail last none (changes + 1)
              weight previousInput index
            .ok (bestResult found mostLikely))
      else .ok mostLikely

theorem recursiveSearchF_eq (n limit : Nat) : ∀ (k : Nat) (input : List G) (node : GramNode G)
    (prev : Option (GramNode G)) (changes : Nat) (weight : F32) (buf : List G) (index : Nat),
    (limit - changes) * (n + 2) + (n - index) < k →
    recursiveSearchF n limit k input node prev changes weight buf index =
      recursiveSearch n input node prev changes limit weight buf index := by
  intro k
  induction k with
  | zero => intro input node prev changes weight buf index h; omega
  | succ k ih =>
    intro input node prev changes weight buf index h
    rw [recursiveSearch, recursiveSearchF]
    by_cases h1 : index = n
    · rw [if_pos h1, if_pos h1]
    rw [if_neg h1, if_neg h1]
    by_cases h2 : index > n
    · rw [if_pos h2, if_pos h2]
    rw [if_neg h2, if_neg h2]
    have i1 : ∀ (input : List G) node prev weight buf, recursiveSearchF n limit k input node prev changes weight buf (index + 1) =
        recursiveSearch n input node prev changes limit weight buf (index + 1) := by
      intro input node prev weight buf
      exact ih _ _ _ _ _ _ _ (by omega)
    simp only [i1]
    by_cases h3 : changes < limit
    · have hm : (limit - changes) * (n + 2) = (limit - (changes + 1)) * (n + 2) + (n + 2) := by
        rw [← Nat.succ_mul]; congr 1; omega
      have hm2 : (limit - (changes + 2)) * (n + 2) ≤ (limit - (changes + 1)) * (n + 2) :=
        Nat.mul_le_mul_right _ (by omega)
      have i2 : ∀ (input : List G) node prev weight buf j, recursiveSearchF n limit k input node prev (changes + 1) weight buf j =
          recursiveSearch n input node prev (changes + 1) limit weight buf j := by
        intro input node prev weight buf j
        exact ih _ _ _ _ _ _ _ (by omega)
      have i3 : ∀ (input : List G) node prev weight buf j, recursiveSearchF n limit k input node prev (changes + 2) weight buf j =
          recursiveSearch n input node prev (changes + 2) limit weight buf j := by
        intro input node prev weight buf j
        exact ih _ _ _ _ _ _ _ (by omega)
      simp only [i2, i3, h3, if_true, dif_pos]
    · simp only [h3, if_false, dif_neg, not_false_eq_true]

/-- `searchGram` by `recursiveSearchF`. -/
def GramIndex.searchGramF (ix : GramIndex G) (n : Nat) (query : List G) : Except Panic (Found G) :=
  match query with
  | [] => .ok none
  | q :: rest =>
    match AMap.get ix.roots q with
    | none => .ok none
    | some root =>
      let previous := (List.replicate n dflt).set 0 q
      if n / 3 < 256 then recursiveSearchF n (n / 3) (n / 3 * (n + 2) + n + 1) rest root none 0 F32.one previous 1
      else .error .unwrapNone

theorem searchGramF_eq (ix : GramIndex G) (n : Nat) (query : List G) : ix.searchGramF n query = ix.searchGram n query := by
  cases query with
  | nil => rfl
  | cons q rest =>
    simp only [GramIndex.searchGramF, GramIndex.searchGram]
    cases AMap.get ix.roots q with
    | none => rfl
    | some root => simp only [recursiveSearchF_eq n (n / 3) (n / 3 * (n + 2) + n + 1) _ _ _ 0 _ _ 1 (by rw [Nat.sub_zero]; omega)]

/-- `searchStep` by `searchGramF`. -/
def GramIndex.searchStepF (ix : GramIndex G) (n : Nat) (st : Ranker × List G) (gram : G) :
    Except Panic (Ranker × List G) := do
  let ngram := shiftIn n st.2 gram
  let r ← ix.searchGramF n ngram
  match r with
  | none => .ok (st.1, ngram)
  | some (found, confidence) =>
    match AMap.get ix.data found with
    | none => .ok (st.1, ngram)
    | some data => .ok (data.foldl (fun r p => r.add p confidence) st.1, ngram)

/-- `search` by `searchStepF`. -/
def GramIndex.searchF (o : HashOrd) (ix : GramIndex G) (n : Nat) (input : List G) :
    Except Panic (List (Product × F32)) := do
  let st ← input.foldlM (ix.searchStepF n) (([] : Ranker), List.replicate n dflt)
  .ok (st.1.export o)

theorem searchF_eq (o : HashOrd) (ix : GramIndex G) (n : Nat) (input : List G) : ix.searchF o n input = ix.search o n input := by
  have : ix.searchStepF n = ix.searchStep n := by
    funext st gram
    unfold GramIndex.searchStepF GramIndex.searchStep
    simp only [searchGramF_eq]
    rfl
  rw [GramIndex.searchF, GramIndex.search, this]

/-- `indexFrom` by `immutalizeF` (a tree over n-grams of size n has depth at most n). -/
def indexFromF (t : Target) (o : HashOrd) (n : Nat) (feeds : List (List G × Product)) (c : Container) : GramIndex G :=
  let (root, data) := feeds.foldl (buildFeed n) ([], [])
  let total := (root.map (·.occ)).sum
  let roots := o.order "roots" (root.map fun m => (m.item, immutalizeF o (n + 1) [] total m))
  let limit := maximumProductAmount t c.products.length
  let data := data.filter fun e => decide (e.2.length < limit)
  let data := data.map fun e => (e.1, stableSort (fun a b : Product => decide (a.sid ≤ b.sid)) e.2)
  { roots, data, container := c }

theorem indexFromF_eq (t : Target) (o : HashOrd) (n : Nat) (feeds : List (List G × Product)) (c : Container)
    (h : ((feeds.foldl (buildFeed n) ([], [])).1.all (MNode.shallow (n + 1))) = true) :
    indexFromF t o n feeds c = indexFrom t o n feeds c := by
  unfold indexFromF indexFrom
  simp only
  congr 2
  apply List.map_congr_left
  intro m hm
  rw [immutalizeF_eq o (n + 1) [] _ m (List.all_eq_true.1 h m hm)]

end Idx
