import Verif.Model.SuggestCost
import Verif.Props.Suggestions
import Verif.Props.Size
/-! # C113: how much work a tag suggestion is -/
namespace Idx

/-- How many characters are compared for a pair of a tag's name and a word. -/
def pairSteps (name word : Str) : Nat := if min (byteLen name) (byteLen word) < 3 then 0 else min name.length word.length

theorem overlapN_eq (a b : Str) : overlapN a b 3 = (overlap a b 3, 1 + pairSteps a b) := by
  unfold overlapN overlap pairSteps
  simp only
  split
  · rfl
  · simp [List.length_zip]

theorem suggestStepN_eq (w : Str) (st : Likely × Nat) (tag : Tag) :
    suggestStepN w st tag = (suggestStep w st.1 tag, st.2 + (1 + pairSteps tag.name w)) := by
  unfold suggestStepN suggestStep
  rw [overlapN_eq]
  simp only
  split
  · cases st.1 with
    | none => rfl
    | some l => rfl
  · rfl

theorem suggestTags_eq (w : Str) : ∀ (tags : List Tag) (st : Likely × Nat),
    tags.foldl (suggestStepN w) st =
      (tags.foldl (suggestStep w) st.1, st.2 + (tags.map fun t => 1 + pairSteps t.name w).sum)
  | [], st => by simp
  | t :: tags, st => by
    rw [List.foldl_cons, List.foldl_cons, suggestStepN_eq, suggestTags_eq w tags, List.map_cons, List.sum_cons]
    simp only [Nat.add_assoc]

theorem suggestWords_eq (tags : List Tag) : ∀ (ws : List Str) (st : Likely × Nat),
    ws.foldl (fun st w => tags.foldl (suggestStepN w) (st.1, st.2 + 1)) st =
      (ws.foldl (fun best w => tags.foldl (suggestStep w) best) st.1,
        st.2 + (ws.map fun w => 1 + (tags.map fun t => 1 + pairSteps t.name w).sum).sum)
  | [], st => by simp
  | w :: ws, st => by
    rw [List.foldl_cons, List.foldl_cons, suggestTags_eq, suggestWords_eq tags ws, List.map_cons, List.sum_cons]
    simp only [Nat.add_assoc]

/-- What is spent on a query. -/
def suggestWork (tags : List Tag) (query : Str) : Nat :=
  byteLen query + ((splitSpaces query).map fun w => 1 + (tags.map fun t => 1 + pairSteps t.name w).sum).sum

theorem suggestLoopN_eq (tags : List Tag) (query : Str) :
    suggestLoopN tags query = (suggestLoop tags query, suggestWork tags query) := by
  unfold suggestLoopN suggestLoop suggestWork
  rw [suggestWords_eq]

/-- The counted call answers what `tag_suggestion` answers, and its steps are exactly: the bytes of the query, one for each
word, one for each pair of a word and a tag, the characters compared (none if one of the two has less than three bytes),
and the bytes of the word returned. -/
theorem C113_exact (e : Engine) (query : Str) (c : Classic) (hfree : e.classic.state = .free) (hv : e.classic.value = some c) :
    ∃ r, e.tagSuggestion query = .ok r ∧
      e.tagSuggestionN query = .ok (r, suggestWork c.tags query + (r.map fun s => byteLen s.input).getD 0) := by
  simp only [Engine.tagSuggestion, Engine.tagSuggestionN, Slot.lockUnwrap, hfree, hv, bind, Except.bind, Option.bind_some,
    suggestLoopN_eq]
  refine ⟨_, rfl, ?_⟩
  cases suggestLoop c.tags query <;> rfl

/-- Every other state: the same answer or the same panic, without any step. -/
theorem C113_nothing (e : Engine) (query : Str) (h : ∀ c, e.classic.lockUnwrap ≠ .ok (some c)) :
    (e.tagSuggestion query).map (·, 0) = e.tagSuggestionN query := by
  simp only [Engine.tagSuggestion, Engine.tagSuggestionN]
  cases hl : e.classic.lockUnwrap with
  | error w => rfl
  | ok index =>
    cases index with
    | none => rfl
    | some c => exact absurd hl (h c)

theorem words_length : ∀ query : Str, ((splitSpaces query).map List.length).sum + (splitSpaces query).length = query.length + 1
  | [] => rfl
  | c :: rest => by
    have ih := words_length rest
    unfold splitSpaces
    split
    · simp only [List.map_cons, List.sum_cons, List.length_nil, List.length_cons]; omega
    · cases hs : splitSpaces rest with
      | nil => rw [hs] at ih; simp at ih
      | cons w ws =>
        rw [hs] at ih
        simp only [List.map_cons, List.sum_cons, List.length_cons] at ih ⊢
        omega

theorem sum_le_mul {α : Type} (l : List α) (f : α → Nat) (k : Nat) (h : ∀ a ∈ l, f a ≤ k) : (l.map f).sum ≤ l.length * k := by
  induction l with
  | nil => simp
  | cons a l ih =>
    rw [List.map_cons, List.sum_cons, List.length_cons, Nat.succ_mul]
    have := h a (by simp)
    have := ih fun b hb => h b (by simp [hb])
    omega

/-- At most one step for each tag and each character of the query, up to the query itself: words and characters of words
together are the characters of the query and one. -/
theorem C113_bound (tags : List Tag) (query : Str) :
    suggestWork tags query ≤ byteLen query + (query.length + 1) * (tags.length + 1) := by
  unfold suggestWork
  have key : ∀ ws : List Str, (ws.map fun w => 1 + (tags.map fun t => 1 + pairSteps t.name w).sum).sum ≤
      ((ws.map List.length).sum + ws.length) * (tags.length + 1) := by
    intro ws
    induction ws with
    | nil => simp
    | cons w ws ih =>
      simp only [List.map_cons, List.sum_cons, List.length_cons]
      have h1 : (tags.map fun t => 1 + pairSteps t.name w).sum ≤ tags.length * (w.length + 1) :=
        sum_le_mul tags _ _ fun t _ => by unfold pairSteps; split <;> omega
      have e : (w.length + (ws.map List.length).sum + (ws.length + 1)) * (tags.length + 1) =
          ((ws.map List.length).sum + ws.length) * (tags.length + 1) + (w.length + 1) * (tags.length + 1) := by
        rw [← Nat.add_mul]; congr 1; omega
      rw [e]
      have e2 : (w.length + 1) * (tags.length + 1) = tags.length * (w.length + 1) + (w.length + 1) := by
        rw [Nat.mul_succ, Nat.mul_comm]
      omega
  have := key (splitSpaces query)
  rw [words_length] at this
  omega

theorem word_byteLen : ∀ (query : Str) (w : Str), w ∈ splitSpaces query → byteLen w ≤ byteLen query
  | [], w, h => by simp [splitSpaces] at h; simp [h]
  | c :: rest, w, h => by
    have ih := word_byteLen rest
    have e : byteLen (c :: rest) = c.utf8Size + byteLen rest := by simp [byteLen]
    unfold splitSpaces at h
    split at h
    · rcases List.mem_cons.1 h with h | h
      · rw [h]; simp [byteLen]
      · have := ih w h; omega
    · cases hs : splitSpaces rest with
      | nil => exact absurd hs (C40_words rest).1
      | cons v vs =>
        rw [hs] at h
        rcases List.mem_cons.1 h with h | h
        · have := ih v (by rw [hs]; simp)
          have e2 : byteLen (c :: v) = c.utf8Size + byteLen v := by simp [byteLen]
          rw [h]; omega
        · have := ih w (by rw [hs]; simp [h]); omega

/-- So on a page with a file of `b` bytes loaded, whatever those bytes are, a call takes at most
`2 * (bytes of the query) + (characters of the query + 1) * (b / 2 + 1)` steps. -/
theorem C113_file {t : Target} {n : Nat} {bytes : Bytes} {ix : GramIndex Char} {cl : Classic}
    (h : deserializeAll t n bytes = .ok (ix, cl)) (e : Engine) (hfree : e.classic.state = .free)
    (hv : e.classic.value = some cl) (query : Str) : ∃ r k, e.tagSuggestionN query = .ok (r, k) ∧
      k ≤ 2 * byteLen query + (query.length + 1) * (bytes.length / 2 + 1) := by
  obtain ⟨r, hr, hk⟩ := C113_exact e query cl hfree hv
  refine ⟨r, _, hk, ?_⟩
  have h1 := C62 h
  have h2 : 2 * cl.tags.length ≤ listUnits (fun tag : Tag => strUnits tag.name + listUnits (fun _ => 1) tag.products) cl.tags :=
    le_listUnits (fun tag => by simp only [strUnits, listUnits]; omega) _
  have h3 : cl.tags.length ≤ bytes.length / 2 := by
    simp only [Classic.units] at h1
    omega
  have h4 := C113_bound cl.tags query
  have h5 : (query.length + 1) * (cl.tags.length + 1) ≤ (query.length + 1) * (bytes.length / 2 + 1) :=
    Nat.mul_le_mul_left _ (by omega)
  have h6 : (r.map fun s => byteLen s.input).getD 0 ≤ byteLen query := by
    cases r with
    | none => simp
    | some s =>
      simp only [Engine.tagSuggestion, Slot.lockUnwrap, hfree, hv, bind, Except.bind, Option.bind_some, Except.ok.injEq] at hr
      cases hl : suggestLoop cl.tags query with
      | none => rw [hl] at hr; cases hr
      | some l =>
        obtain ⟨ov, id, w⟩ := l
        rw [hl] at hr
        simp only [Option.map_some, Option.some.injEq] at hr
        rw [← hr]
        exact word_byteLen query w (suggest_best hl).2.1
  omega

/-- The bound cannot be lowered to less than the product: with `k` tags of the name asked for, every character is compared
`k` times. -/
theorem C113_tight (k : Nat) (name : Str) (hlong : 3 ≤ byteLen name) (hspace : ' ' ∉ name) :
    suggestWork (List.replicate k ⟨name, [], [], 0⟩) name = byteLen name + 1 + k * (name.length + 1) := by
  have hs : splitSpaces name = [name] := split_of_join [name] (by simp) fun w hw => by rw [List.mem_singleton.1 hw]; exact hspace
  unfold suggestWork
  rw [hs]
  simp only [List.map_cons, List.map_nil, List.sum_cons, List.sum_nil, List.map_replicate, List.sum_replicate_nat, pairSteps,
    Nat.min_self]
  rw [if_neg (by omega), Nat.add_comm name.length 1]
  omega

end Idx
