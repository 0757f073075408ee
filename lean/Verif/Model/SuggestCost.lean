import Verif.Model.Engine

/-! A call of `tag_suggestion` again, counting its steps: the bytes of the query looked at while it is split, the words,
the pairs of a word and a tag, and the pairs of characters compared. `Props/SuggestCost.lean` shows that without the count
this is `tag_suggestion`. -/

namespace Idx

/-- `overlap` (src/lib.rs:151-165) with its steps: one for the lengths, one for each pair of characters. -/
def overlapN (original other : Str) (minLen : Nat) : F32 × Nat :=
  let found := min (byteLen original) (byteLen other)
  if found < minLen then (F32.zero, 1)
  else
    let marks := (original.zip other).map fun (a, b) => if a = b then F32.one else F32.zero
    (F32.div (sumFloats marks) (F32.ofNat found), 1 + marks.length)

/-- Body of the inner loop (src/lib.rs:174-183) with the steps so far. -/
def suggestStepN (keyword : Str) (st : Likely × Nat) (tag : Tag) : Likely × Nat :=
  let (ov, k) := overlapN tag.name keyword 3
  if F32.lt F32.zeroPointEight ov then
    match st.1 with
    | some (current, _, _) => (if F32.lt current ov then some (ov, tag.id, keyword) else st.1, st.2 + k)
    | none => (some (ov, tag.id, keyword), st.2 + k)
  else (st.1, st.2 + k)

/-- The double loop (src/lib.rs:171-185) with its steps: one for each byte of the query and one for each word. -/
def suggestLoopN (tags : List Tag) (query : Str) : Likely × Nat :=
  (splitSpaces query).foldl (fun st keyword => tags.foldl (suggestStepN keyword) (st.1, st.2 + 1)) (none, byteLen query)

/-- `tag_suggestion` (src/lib.rs:148-191) with its steps, those of copying the word included. -/
def Engine.tagSuggestionN (e : Engine) (query : Str) : Except Panic (Option Suggestion × Nat) := do
  let index ← e.classic.lockUnwrap
  match index with
  | none => .ok (none, 0)
  | some c =>
    match suggestLoopN c.tags query with
    | (none, k) => .ok (none, k)
    | (some l, k) => .ok (some { tag := { handle := c, index := l.2.1 }, input := l.2.2 }, k + byteLen l.2.2)

end Idx
