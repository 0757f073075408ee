import Verif.Lemmas.AMap
import Verif.Lemmas.Sort
import Verif.Model.NGram
/-! What `index_from` builds: substring counts, windows, posting lists. -/
set_option linter.unusedSectionVars false
namespace Idx
variable {G : Type} [DecidableEq G] [RDefault G]

/-! ## Specification vocabulary -/

/-- How often `path` occurs as consecutive grams of `text`: number of start positions. -/
def occurrences (path text : List G) : Nat :=
  (List.range text.length).countP fun i => path.isPrefixOf (text.drop i)

/-- Total occurrences over all texts. -/
def occurrencesIn (path : List G) (texts : List (List G)) : Nat := (texts.map (occurrences path)).sum

/-- The windows of `n` consecutive grams of the front-padded text, one per gram of the text. -/
def paddedWindows (n : Nat) (text : List G) : List (List G) :=
  (List.range text.length).map fun i => ((List.replicate (n - 1) dflt ++ text).drop i).take n

theorem occurrences_nil (path : List G) : occurrences path [] = 0 := rfl

theorem occurrences_cons (path : List G) (d : G) (text : List G) :
    occurrences path (d :: text) = occurrences path text + if path.isPrefixOf (d :: text) then 1 else 0 := by
  simp only [occurrences, List.length_cons, List.range_succ_eq_map, List.countP_cons, List.countP_map, List.drop_zero]
  congr 1

/-- Occurrences of `path` ending at the last gram of `done ++ [g]`. -/
theorem occurrences_snoc (path done : List G) (g : G) (h : path ≠ []) :
    occurrences path (done ++ [g]) = occurrences path done + if path <:+ done ++ [g] then 1 else 0 := by
  induction done with
  | nil =>
    cases path with
    | nil => exact absurd rfl h
    | cons x xs =>
      rw [List.nil_append, occurrences_cons, occurrences_nil]
      have e : (x :: xs) <:+ [g] ↔ x = g ∧ xs = [] := by
        constructor
        · intro ⟨pre, hp⟩
          cases pre with
          | nil => simpa using hp
          | cons a pre => simp at hp
        · rintro ⟨rfl, rfl⟩; exact List.suffix_refl _
      have e' : (x :: xs).isPrefixOf [g] = true ↔ x = g ∧ xs = [] := by
        rw [List.isPrefixOf_iff_prefix, List.cons_prefix_cons]; simp
      by_cases hc : x = g ∧ xs = []
      · rw [if_pos (e.2 hc), if_pos (e'.2 hc)]
      · rw [if_neg (mt e.1 hc), if_neg (mt e'.1 hc)]
  | cons d done ih =>
    have e1 := occurrences_cons path d done
    have e2 := occurrences_cons path d (done ++ [g])
    rw [List.cons_append, e1, e2, ih]
    have e3 : path.isPrefixOf (d :: (done ++ [g])) = true ↔
        path.isPrefixOf (d :: done) = true ∨ path = d :: (done ++ [g]) := by
      rw [List.isPrefixOf_iff_prefix, List.isPrefixOf_iff_prefix, ← List.cons_append,
        List.prefix_concat_iff]
      constructor <;> (intro hh; rcases hh with hh | hh <;> simp [hh])
    have e4 : path <:+ d :: (done ++ [g]) ↔ path = d :: (done ++ [g]) ∨ path <:+ done ++ [g] := by
      rw [List.suffix_cons_iff]
    have ex1 : path = d :: (done ++ [g]) → ¬ path.isPrefixOf (d :: done) = true := by
      rintro rfl hp
      have := (List.isPrefixOf_iff_prefix.1 hp).length_le
      simp at this; omega
    have ex2 : path = d :: (done ++ [g]) → ¬ path <:+ done ++ [g] := by
      rintro rfl hp
      have := hp.length_le
      simp at this; omega
    by_cases h1 : path = d :: (done ++ [g])
    · have a := ex1 h1; have b := ex2 h1
      have c := e3.2 (.inr h1); have d' := e4.2 (.inl h1)
      rw [if_pos c, if_neg b, if_neg a, if_pos d']
    · have c : path.isPrefixOf (d :: (done ++ [g])) = path.isPrefixOf (d :: done) := by
        rw [Bool.eq_iff_iff, e3]; simp [h1]
      rw [c]
      by_cases h2 : path <:+ done ++ [g]
      · rw [if_pos h2, if_pos (e4.2 (.inr h2))]; omega
      · rw [if_neg h2, if_neg (fun hh => (e4.1 hh).elim h1 h2)]; omega

/-! ## The mutable forest -/

@[simp] theorem MNode.item_mk (i : G) (o : Nat) (l : List (MNode G)) : (MNode.mk i o l).item = i := rfl
@[simp] theorem MNode.occ_mk (i : G) (o : Nat) (l : List (MNode G)) : (MNode.mk i o l).occ = o := rfl
@[simp] theorem MNode.items_mk (i : G) (o : Nat) (l : List (MNode G)) : (MNode.mk i o l).items = l := rfl

/-- Distinct siblings and positive counts, hereditarily. -/
inductive ForestOk : List (MNode G) → Prop where
  | mk {f : List (MNode G)} : (f.map (·.item)).Nodup → (∀ n ∈ f, 1 ≤ n.occ) →
      (∀ n ∈ f, ForestOk n.items) → ForestOk f

theorem ForestOk.nodup {f : List (MNode G)} : ForestOk f → (f.map (·.item)).Nodup
  | .mk h _ _ => h
theorem ForestOk.pos {f : List (MNode G)} : ForestOk f → ∀ n ∈ f, 1 ≤ n.occ
  | .mk _ h _ => h
theorem ForestOk.child {f : List (MNode G)} : ForestOk f → ∀ n ∈ f, ForestOk n.items
  | .mk _ _ h => h

/-- The node with that item among siblings. -/
def childOf (f : List (MNode G)) (g : G) : Option (MNode G) := f.find? fun n => n.item = g

/-- The node at the end of `g :: path`. -/
def nodeAt (f : List (MNode G)) (g : G) : List G → Option (MNode G)
  | [] => childOf f g
  | h :: path => (childOf f g).bind fun n => nodeAt n.items h path

/-- Count stored at a path, 0 if absent. -/
def occAt (f : List (MNode G)) : List G → Nat
  | [] => 0
  | g :: path => ((nodeAt f g path).map (·.occ)).getD 0

theorem childOf_nil (g : G) : childOf ([] : List (MNode G)) g = none := rfl

theorem childOf_cons (n : MNode G) (f : List (MNode G)) (g : G) :
    childOf (n :: f) g = if n.item = g then some n else childOf f g := by
  simp only [childOf, List.find?_cons]
  by_cases h : n.item = g <;> simp [h]

theorem childOf_bumpHere (f : List (MNode G)) (g x : G) :
    childOf (bumpHere f g) x = if x = g then
        some (match childOf f g with
          | some n => .mk n.item (n.occ + 1) n.items
          | none => .mk g 1 [])
      else childOf f x := by
  induction f with
  | nil =>
    simp only [bumpHere, childOf_cons, childOf_nil, MNode.item_mk]
    by_cases h : x = g
    · simp [h]
    · simp [h, Ne.symm h]
  | cons n f ih =>
    simp only [bumpHere]
    by_cases hn : n.item = g
    · rw [if_pos hn, childOf_cons, childOf_cons, childOf_cons]
      by_cases h : x = g
      · subst h; simp [hn]
      · have : ¬ n.item = x := fun e => h (e.symm.trans hn)
        simp [h, this]
    · rw [if_neg hn, childOf_cons, ih, childOf_cons, childOf_cons, if_neg hn]
      by_cases h : x = g
      · subst h; simp [hn]
      · simp [h]

theorem childOf_modifyChild (f : List (MNode G)) (g x : G) (upd : List (MNode G) → List (MNode G)) :
    childOf (modifyChild f g upd) x = if x = g then (childOf f g).map (fun n => .mk n.item n.occ (upd n.items))
      else childOf f x := by
  induction f with
  | nil => simp [modifyChild, childOf_nil]
  | cons n f ih =>
    simp only [modifyChild]
    by_cases hn : n.item = g
    · rw [if_pos hn, childOf_cons, childOf_cons, childOf_cons]
      by_cases h : x = g
      · subst h; simp [hn]
      · have : ¬ n.item = x := fun e => h (e.symm.trans hn)
        simp [h, this]
    · rw [if_neg hn, childOf_cons, ih, childOf_cons, childOf_cons, if_neg hn]
      by_cases h : x = g
      · subst h; simp [hn]
      · simp [h]

theorem nodeAt_nil (g : G) (path : List G) : nodeAt ([] : List (MNode G)) g path = none := by
  cases path <;> rfl

theorem occAt_bumpHere (f : List (MNode G)) (g : G) (q : List G) :
    occAt (bumpHere f g) q = occAt f q + if q = [g] then 1 else 0 := by
  cases q with
  | nil => simp [occAt]
  | cons x r =>
    cases r with
    | nil =>
      simp only [occAt, nodeAt, childOf_bumpHere]
      by_cases h : x = g
      · subst h
        simp only [if_true]
        cases childOf f x <;> simp
      · simp [h]
    | cons y r =>
      simp only [occAt, nodeAt, childOf_bumpHere]
      by_cases h : x = g
      · subst h
        simp only [if_true]
        cases childOf f x with
        | none => simp [nodeAt_nil]
        | some n => simp
      · simp [h]

theorem occAt_modifyChild (f : List (MNode G)) (h : G) (upd : List (MNode G) → List (MNode G)) (q : List G) :
    occAt (modifyChild f h upd) q = match q with
      | x :: y :: r => if x = h then ((childOf f h).map fun n => occAt (upd n.items) (y :: r)).getD 0
          else occAt f q
      | _ => occAt f q := by
  match q with
  | [] => rfl
  | [x] =>
    simp only [occAt, nodeAt, childOf_modifyChild]
    by_cases e : x = h
    · subst e; cases childOf f x <;> simp
    · simp [e]
  | x :: y :: r =>
    simp only [occAt, nodeAt, childOf_modifyChild]
    by_cases e : x = h
    · subst e
      cases childOf f x <;> simp
    · simp [e]

theorem occAt_cons_cons (f : List (MNode G)) (x y : G) (r : List G) :
    occAt f (x :: y :: r) = ((childOf f x).map fun n => occAt n.items (y :: r)).getD 0 := by
  simp only [occAt, nodeAt]
  cases childOf f x <;> simp

/-- A node exists at every non-empty prefix of the path. -/
def Exists (f : List (MNode G)) : List G → Prop
  | [] => True
  | g :: path => (nodeAt f g path).isSome

theorem exists_cons {f : List (MNode G)} {g : G} {path : List G} (h : Exists f (g :: path)) :
    ∃ n, childOf f g = some n ∧ Exists n.items path := by
  cases path with
  | nil =>
    simp only [Exists, nodeAt] at h
    obtain ⟨n, hn⟩ := Option.isSome_iff_exists.1 h
    exact ⟨n, hn, trivial⟩
  | cons y r =>
    simp only [Exists, nodeAt] at h
    cases hc : childOf f g with
    | none => rw [hc] at h; simp at h
    | some n => rw [hc] at h; exact ⟨n, rfl, h⟩

theorem occAt_bumpAt (path : List G) : ∀ (f : List (MNode G)) (g : G) (q : List G), Exists f path →
    occAt (bumpAt path f g) q = occAt f q + if q = path ++ [g] then 1 else 0 := by
  induction path with
  | nil => intro f g q _; exact occAt_bumpHere f g q
  | cons h path ih =>
    intro f g q hex
    obtain ⟨n, hn, hex'⟩ := exists_cons hex
    simp only [bumpAt]
    rw [occAt_modifyChild]
    match q with
    | [] => simp
    | [x] => simp
    | x :: y :: r =>
      simp only
      by_cases e : x = h
      · subst e
        rw [if_pos rfl, occAt_cons_cons, hn]
        simp only [Option.map_some, Option.getD_some]
        rw [ih _ _ _ hex']
        simp
      · simp [e]

theorem occAt_pos_iff {f : List (MNode G)} (hf : ForestOk f) (g : G) (path : List G) :
    0 < occAt f (g :: path) ↔ (nodeAt f g path).isSome := by
  simp only [occAt]
  have : ∀ (path : List G) (f : List (MNode G)) (g : G), ForestOk f → ∀ n, nodeAt f g path = some n → 1 ≤ n.occ := by
    intro path
    induction path with
    | nil =>
      intro f g hf n hn
      exact hf.pos n (List.mem_of_find?_eq_some hn)
    | cons y r ih =>
      intro f g hf n hn
      simp only [nodeAt] at hn
      cases hc : childOf f g with
      | none => rw [hc] at hn; simp at hn
      | some m =>
        rw [hc] at hn
        exact ih m.items y (hf.child m (List.mem_of_find?_eq_some hc)) n hn
  cases h : nodeAt f g path with
  | none => simp
  | some n => have := this path f g hf n h; simp; omega

theorem mem_bumpHere {f : List (MNode G)} {g : G} {n : MNode G} (h : n ∈ bumpHere f g) :
    n ∈ f ∨ n = .mk g 1 [] ∨ ∃ m ∈ f, n = .mk m.item (m.occ + 1) m.items := by
  induction f with
  | nil => simp only [bumpHere, List.mem_singleton] at h; exact .inr (.inl h)
  | cons m f ih =>
    simp only [bumpHere] at h
    split at h
    · rcases List.mem_cons.1 h with rfl | h
      · exact .inr (.inr ⟨m, by simp, rfl⟩)
      · exact .inl (by simp [h])
    · rcases List.mem_cons.1 h with rfl | h
      · exact .inl (by simp)
      · rcases ih h with h | h | ⟨m', h', e⟩
        · exact .inl (by simp [h])
        · exact .inr (.inl h)
        · exact .inr (.inr ⟨m', by simp [h'], e⟩)

theorem items_bumpHere (f : List (MNode G)) (g : G) :
    (bumpHere f g).map (·.item) = if g ∈ f.map (·.item) then f.map (·.item) else f.map (·.item) ++ [g] := by
  induction f with
  | nil => simp [bumpHere]
  | cons m f ih =>
    simp only [bumpHere]
    by_cases h : m.item = g
    · rw [if_pos h]
      simp [h]
    · rw [if_neg h, List.map_cons, ih, List.map_cons]
      simp only [List.mem_cons, Ne.symm h, false_or]
      split <;> simp

theorem ForestOk.nil : ForestOk ([] : List (MNode G)) := .mk (by simp) (by simp) (by simp)

theorem ForestOk.bumpHere {f : List (MNode G)} (hf : ForestOk f) (g : G) : ForestOk (bumpHere f g) := by
  refine .mk ?_ ?_ ?_
  · rw [items_bumpHere]
    split
    · exact hf.nodup
    · rename_i h
      rw [List.nodup_append]
      refine ⟨hf.nodup, by simp, ?_⟩
      intro a ha b hb e
      simp only [List.mem_singleton] at hb
      subst hb; subst e; exact h ha
  · intro n hn
    rcases mem_bumpHere hn with h | h | ⟨m, hm, h⟩
    · exact hf.pos n h
    · subst h; exact Nat.le_refl _
    · subst h; have := hf.pos m hm; simp only [MNode.occ_mk]; omega
  · intro n hn
    rcases mem_bumpHere hn with h | h | ⟨m, hm, h⟩
    · exact hf.child n h
    · subst h; exact ForestOk.nil
    · subst h; exact hf.child m hm

theorem mem_modifyChild {f : List (MNode G)} {g : G} {upd} {n : MNode G} (h : n ∈ modifyChild f g upd) :
    n ∈ f ∨ ∃ m ∈ f, n = .mk m.item m.occ (upd m.items) := by
  induction f with
  | nil => simp [modifyChild] at h
  | cons m f ih =>
    simp only [modifyChild] at h
    split at h
    · rcases List.mem_cons.1 h with rfl | h
      · exact .inr ⟨m, by simp, rfl⟩
      · exact .inl (by simp [h])
    · rcases List.mem_cons.1 h with rfl | h
      · exact .inl (by simp)
      · rcases ih h with h | ⟨m', h', e⟩
        · exact .inl (by simp [h])
        · exact .inr ⟨m', by simp [h'], e⟩

theorem items_modifyChild (f : List (MNode G)) (g : G) (upd) :
    (modifyChild f g upd).map (·.item) = f.map (·.item) := by
  induction f with
  | nil => rfl
  | cons m f ih =>
    simp only [modifyChild]
    split
    · simp
    · simp [ih]

theorem ForestOk.bumpAt (path : List G) : ∀ {f : List (MNode G)}, ForestOk f → ∀ g, ForestOk (bumpAt path f g) := by
  induction path with
  | nil => intro f hf g; exact hf.bumpHere g
  | cons h path ih =>
    intro f hf g
    simp only [Idx.bumpAt]
    refine .mk ?_ ?_ ?_
    · rw [items_modifyChild]; exact hf.nodup
    · intro n hn
      rcases mem_modifyChild hn with h | ⟨m, hm, h⟩
      · exact hf.pos n h
      · subst h; exact hf.pos m hm
    · intro n hn
      rcases mem_modifyChild hn with h | ⟨m, hm, h⟩
      · exact hf.child n h
      · subst h; exact ih (hf.child m hm) g

/-! ## One gram -/

theorem advanceQueue_fst (g : G) (queue : List (List G)) : ∀ (f : List (MNode G)),
    (advanceQueue g queue f).1 = queue.map (· ++ [g]) := by
  induction queue with
  | nil => intro f; rfl
  | cons path queue ih => intro f; simp [advanceQueue, ih]

theorem advanceQueue_ok (g : G) (queue : List (List G)) : ∀ (f : List (MNode G)), ForestOk f →
    ForestOk (advanceQueue g queue f).2 := by
  induction queue with
  | nil => intro f h; exact h
  | cons path queue ih => intro f h; exact ih _ (h.bumpAt path g)

theorem exists_iff_pos {f : List (MNode G)} (hf : ForestOk f) (path : List G) :
    Exists f path ↔ path = [] ∨ 0 < occAt f path := by
  cases path with
  | nil => simp [Exists]
  | cons g path => simp [Exists, occAt_pos_iff hf]

theorem advanceQueue_occ (g : G) (queue : List (List G)) : ∀ (f : List (MNode G)), ForestOk f →
    (∀ path ∈ queue, Exists f path) → ∀ q,
    occAt (advanceQueue g queue f).2 q = occAt f q + queue.countP fun path => decide (q = path ++ [g]) := by
  induction queue with
  | nil => intro f _ _ q; simp [advanceQueue]
  | cons path queue ih =>
    intro f hf hex q
    simp only [advanceQueue]
    rw [ih _ (hf.bumpAt path g)]
    · rw [occAt_bumpAt path f g q (hex path (by simp)), List.countP_cons]
      simp only [decide_eq_true_eq]
      omega
    · intro p hp
      rw [exists_iff_pos (hf.bumpAt path g)]
      rcases (exists_iff_pos hf p).1 (hex p (by simp [hp])) with h | h
      · exact .inl h
      · rw [occAt_bumpAt path f g p (hex path (by simp))]
        exact .inr (by omega)

/-- The queue before the next gram: the suffixes of the grams seen, of lengths 1 to N-1. -/
def suffixPaths (n : Nat) (done : List G) : List (List G) :=
  (List.range' 1 (min (n - 1) done.length)).map fun k => done.drop (done.length - k)

theorem suffixPaths_snoc (n : Nat) (hn : 1 ≤ n) (done : List G) (g : G) :
    (let queue := [g] :: (suffixPaths n done).map (· ++ [g])
     if queue.length = n then queue.dropLast else queue) = suffixPaths n (done ++ [g]) := by
  have key : [g] :: (suffixPaths n done).map (· ++ [g]) =
      (List.range' 1 (min (n - 1) done.length + 1)).map fun k => (done ++ [g]).drop (done.length + 1 - k) := by
    rw [List.range'_succ, List.map_cons]
    congr 1
    · simp
    · rw [suffixPaths, List.map_map, List.range'_eq_map_range, List.range'_eq_map_range, List.map_map, List.map_map]
      apply List.map_congr_left
      intro k hk
      have hk := List.mem_range.1 hk
      simp only [Function.comp_apply]
      rw [List.drop_append_of_le_length (by omega)]
      congr 2
      omega
  simp only
  rw [key]
  simp only [List.length_map, List.length_range']
  split
  · rename_i h
    rw [← List.map_dropLast, suffixPaths, List.length_append, List.length_singleton]
    have : (List.range' 1 (min (n - 1) done.length + 1)).dropLast =
        List.range' 1 (min (n - 1) (done.length + 1)) := by
      rw [List.range'_1_concat, List.dropLast_concat]
      congr 1; omega
    rw [this]
  · rename_i h
    rw [suffixPaths, List.length_append, List.length_singleton]
    congr 2
    omega

theorem suffixPaths_countP (n : Nat) (done : List G) (g : G) (q : List G) (hq : 2 ≤ q.length) :
    (suffixPaths n done).countP (fun path => decide (q = path ++ [g])) =
      if q.length ≤ n ∧ q <:+ done ++ [g] then 1 else 0 := by
  rw [suffixPaths, List.countP_map]
  by_cases h : q.length ≤ n ∧ q <:+ done ++ [g]
  · rw [if_pos h]
    have hl := h.2.length_le
    simp only [List.length_append, List.length_singleton] at hl
    have hq' : q = (done ++ [g]).drop (done.length + 1 - q.length) := by
      have := List.suffix_iff_eq_drop.1 h.2
      simpa using this
    have : (fun k => decide (q = done.drop (done.length - k) ++ [g])) =
        fun k => decide (q = done.drop (done.length - k) ++ [g]) := rfl
    have e : ∀ k ∈ List.range' 1 (min (n - 1) done.length),
        ((fun path => decide (q = path ++ [g])) ∘ fun k => done.drop (done.length - k)) k = true ↔
          (fun k => k == q.length - 1) k = true := by
      intro k hk
      rw [List.mem_range'_1] at hk
      simp only [Function.comp_apply, decide_eq_true_eq, beq_iff_eq]
      constructor
      · intro e
        have := congrArg List.length e
        simp at this
        omega
      · intro e
        rw [hq', List.drop_append_of_le_length (by omega)]
        congr 2
        omega
    rw [List.countP_congr e]
    have := List.Nodup.count (l := List.range' 1 (min (n - 1) done.length)) (a := q.length - 1)
      (List.nodup_range' (step := 1))
    rw [if_pos (by rw [List.mem_range'_1]; omega)] at this
    exact this
  · rw [if_neg h, List.countP_eq_zero]
    intro k hk
    rw [List.mem_range'_1] at hk
    simp only [Function.comp_apply, decide_eq_true_eq]
    intro e
    apply h
    have := congrArg List.length e
    simp at this
    refine ⟨by omega, ?_⟩
    rw [e]
    obtain ⟨pre, hp⟩ := List.drop_suffix (done.length - k) done
    exact ⟨pre, by rw [← List.append_assoc, hp]⟩

/-! ## The sliding window -/

theorem shiftLoop_eq (a : List G) (k : Nat) (hk : k + 1 ≤ a.length) :
    (List.range' 1 k).foldl (fun a i => a.set (i - 1) (a[i]?.getD dflt)) a = a.tail.take k ++ a.drop k := by
  induction k with
  | zero => simp
  | succ k ih =>
    rw [List.range'_1_concat, List.foldl_append, ih (by omega)]
    simp only [List.foldl_cons, List.foldl_nil]
    have h1 : (a.tail.take k).length = k := by simp; omega
    have h2 : (a.tail.take k ++ a.drop k)[1 + k]? = some (a[k + 1]'(by omega)) := by
      rw [List.getElem?_append_right (by omega), h1, List.getElem?_drop,
        List.getElem?_eq_getElem (by omega)]
      congr 2; omega
    rw [h2, Option.getD_some, List.set_append_right _ _ (by omega), h1]
    have h3 : a.drop k = a[k]'(by omega) :: a.drop (k + 1) := List.drop_eq_getElem_cons (by omega)
    rw [h3, show 1 + k - 1 - k = 0 by omega, List.set_cons_zero]
    have h4 : a.tail.take (k + 1) = a.tail.take k ++ [a[k + 1]'(by omega)] := by
      rw [List.take_add_one]
      congr 1
      rw [List.getElem?_tail, List.getElem?_eq_getElem (by omega)]
      rfl
    rw [h4]; simp

theorem shiftIn_eq (n : Nat) (hn : 1 ≤ n) (a : List G) (ha : a.length = n) (g : G) :
    shiftIn n a g = a.drop 1 ++ [g] := by
  rw [shiftIn, shiftLoop_eq a (n - 1) (by omega)]
  have h1 : (a.tail.take (n - 1)).length = n - 1 := by simp; omega
  rw [List.set_append_right _ _ (by omega), h1, Nat.sub_self]
  have h2 : a.drop (n - 1) = [a[n - 1]'(by omega)] := by
    rw [List.drop_eq_getElem_cons (by omega), List.drop_eq_nil_of_le (by omega)]
  rw [h2, List.set_cons_zero, List.take_of_length_le (by simp; omega)]
  simp

/-- The window after the grams `done`. -/
def windowAfter (n : Nat) (done : List G) : List G := (List.replicate n dflt ++ done).drop done.length

theorem windowAfter_length (n : Nat) (done : List G) : (windowAfter n done).length = n := by
  simp [windowAfter]

theorem windowAfter_snoc (n : Nat) (hn : 1 ≤ n) (done : List G) (g : G) :
    shiftIn n (windowAfter n done) g = windowAfter n (done ++ [g]) := by
  rw [shiftIn_eq n hn _ (windowAfter_length n done), windowAfter, windowAfter, List.drop_drop]
  rw [← List.append_assoc, List.length_append, List.length_singleton,
    List.drop_append_of_le_length (l₁ := List.replicate n dflt ++ done)]
  have : (List.replicate n (dflt : G) ++ done).length = n + done.length := by simp
  omega

theorem windowAfter_eq (n : Nat) (hn : 1 ≤ n) (done : List G) (g : G) :
    windowAfter n (done ++ [g]) =
      ((List.replicate (n - 1) dflt ++ (done ++ [g])).drop done.length).take n := by
  have e : List.replicate n (dflt : G) = dflt :: List.replicate (n - 1) dflt := by
    rw [← List.replicate_succ]; congr 1; omega
  rw [windowAfter, e, List.cons_append, List.length_append, List.length_singleton, List.drop_succ_cons,
    List.take_of_length_le]
  simp; omega

theorem paddedWindows_nil (n : Nat) : paddedWindows n ([] : List G) = [] := rfl

theorem paddedWindows_snoc (n : Nat) (hn : 1 ≤ n) (done : List G) (g : G) :
    paddedWindows n (done ++ [g]) = paddedWindows n done ++ [windowAfter n (done ++ [g])] := by
  rw [windowAfter_eq n hn, paddedWindows, paddedWindows, List.length_append, List.length_singleton,
    List.range_succ, List.map_append, List.map_singleton]
  congr 1
  apply List.map_congr_left
  intro i hi
  have hi := List.mem_range.1 hi
  rw [← List.append_assoc, List.drop_append_of_le_length (by simp; omega),
    List.take_append_of_le_length (by simp; omega)]

theorem paddedWindows_length {n : Nat} (hn : 1 ≤ n) {text w : List G} (h : w ∈ paddedWindows n text) :
    w.length = n := by
  simp only [paddedWindows, List.mem_map, List.mem_range] at h
  obtain ⟨i, hi, rfl⟩ := h
  simp; omega

/-! ## One text -/

/-- What one text contributes to the posting list of `k`. -/
def postingOf (n : Nat) (k : List G) (feed : List G × Product) : List Product :=
  List.replicate ((paddedWindows n feed.1).count k) feed.2

/-- What a posting table with no empty list says about `k`. -/
def asPosting (l : List Product) : Option (List Product) := if l = [] then none else some l

structure TextInv (n : Nat) (f0 : List (MNode G)) (posts : List G → List Product) (p : Product)
    (done : List G) (st : BuildState G) : Prop where
  ok : ForestOk st.root
  queue : st.queue = suffixPaths n done
  occ : ∀ q, occAt st.root q = occAt f0 q + if 1 ≤ q.length ∧ q.length ≤ n then occurrences q done else 0
  lookback : st.lookback = windowAfter n done
  wf : AMap.Wf st.data
  data : ∀ k, AMap.get st.data k = asPosting (posts k ++ postingOf n k (done, p))

theorem occurrences_pos_of_suffix {path done : List G} (h : path ≠ []) (hs : path <:+ done) :
    1 ≤ occurrences path done := by
  rcases List.eq_nil_or_concat done with rfl | ⟨init, g, rfl⟩
  · exact absurd (List.suffix_nil.1 hs) h
  · rw [List.concat_eq_append] at hs ⊢
    rw [occurrences_snoc _ _ _ h, if_pos hs]; omega

theorem mem_suffixPaths {n : Nat} {done path : List G} (h : path ∈ suffixPaths n done) :
    path ≠ [] ∧ path.length < n ∧ path <:+ done := by
  simp only [suffixPaths, List.mem_map, List.mem_range'_1] at h
  obtain ⟨k, hk, rfl⟩ := h
  refine ⟨?_, ?_, List.drop_suffix _ _⟩
  · intro e
    have := congrArg List.length e
    simp at this; omega
  · simp; omega

theorem asPosting_append (l : List Product) (p : Product) : asPosting (l ++ [p]) = some (l ++ [p]) := by
  simp [asPosting]

theorem textInv_step {n : Nat} (hn : 1 ≤ n) {f0 : List (MNode G)} {posts : List G → List Product} {p : Product}
    {done : List G} {st : BuildState G} (h : TextInv n f0 posts p done st) (g : G) :
    TextInv n f0 posts p (done ++ [g]) (buildGram n p st g) := by
  have hbump : ForestOk (bumpHere st.root g) := h.ok.bumpHere g
  have hex : ∀ path ∈ st.queue, Exists (bumpHere st.root g) path := by
    intro path hp
    rw [h.queue] at hp
    obtain ⟨h1, h2, h3⟩ := mem_suffixPaths hp
    rw [exists_iff_pos hbump]
    refine .inr ?_
    have h4 := occurrences_pos_of_suffix h1 h3
    have h5 : 1 ≤ path.length := by cases path with | nil => exact absurd rfl h1 | cons => simp
    rw [occAt_bumpHere, h.occ, if_pos ⟨h5, by omega⟩]
    omega
  refine ⟨?_, ?_, ?_, ?_, ?_, ?_⟩
  · exact advanceQueue_ok g _ _ hbump
  · simp only [buildGram]
    rw [advanceQueue_fst, h.queue]
    exact suffixPaths_snoc n hn done g
  · intro q
    simp only [buildGram]
    rw [advanceQueue_occ g _ _ hbump hex, occAt_bumpHere, h.occ, h.queue]
    match q with
    | [] => simp [suffixPaths]
    | [x] =>
      have e : (suffixPaths n done).countP (fun path => decide ([x] = path ++ [g])) = 0 := by
        rw [List.countP_eq_zero]
        intro path hp
        have := (mem_suffixPaths hp).1
        simp only [decide_eq_true_eq]
        intro e
        have := congrArg List.length e
        cases path with
        | nil => contradiction
        | cons => simp at this
      rw [e, occurrences_snoc _ _ _ (by simp)]
      have e2 : [x] <:+ done ++ [g] ↔ [x] = [g] := by
        constructor
        · intro hs
          have := List.suffix_iff_eq_drop.1 hs
          simpa using this
        · intro e; rw [e]; exact List.suffix_append _ _
      by_cases hx : [x] = [g]
      · rw [if_pos hx, if_pos (e2.2 hx)]; simp only [List.length_singleton]; rw [if_pos ⟨Nat.le_refl _, hn⟩, if_pos ⟨Nat.le_refl _, hn⟩]; omega
      · rw [if_neg hx, if_neg (mt e2.1 hx)]; simp
    | x :: y :: r =>
      rw [suffixPaths_countP n done g _ (by simp), occurrences_snoc _ _ _ (by simp)]
      have : ¬ (x :: y :: r) = [g] := by simp
      rw [if_neg this]
      have hpos : 1 ≤ (x :: y :: r).length := by simp
      generalize hq : x :: y :: r = q at *
      by_cases h1 : q.length ≤ n
      · have c1 : 1 ≤ q.length ∧ q.length ≤ n := ⟨hpos, h1⟩
        simp only [if_pos c1]
        by_cases h2 : q <:+ done ++ [g]
        · have c2 : q.length ≤ n ∧ q <:+ done ++ [g] := ⟨h1, h2⟩
          simp only [if_pos c2, if_pos h2]; omega
        · have c2 : ¬ (q.length ≤ n ∧ q <:+ done ++ [g]) := fun hh => h2 hh.2
          simp only [if_neg c2, if_neg h2]; omega
      · have c1 : ¬ (1 ≤ q.length ∧ q.length ≤ n) := fun hh => h1 hh.2
        have c2 : ¬ (q.length ≤ n ∧ q <:+ done ++ [g]) := fun hh => h1 hh.1
        simp only [if_neg c1, if_neg c2]
  · simp only [buildGram]
    rw [h.lookback, windowAfter_snoc n hn]
  · exact h.wf.upsert _ _ _
  · intro k
    simp only [buildGram]
    rw [h.lookback, windowAfter_snoc n hn, AMap.get_upsert, h.data, h.data]
    simp only [postingOf, paddedWindows_snoc n hn, List.count_append]
    by_cases hk : k = windowAfter n (done ++ [g])
    · subst hk
      simp only [if_true, List.count_singleton_self, List.replicate_succ', ← List.append_assoc,
        asPosting_append]
      simp only [asPosting]
      by_cases hl : posts (windowAfter n (done ++ [g])) ++
        List.replicate (List.count (windowAfter n (done ++ [g])) (paddedWindows n done)) p = []
      · rw [if_pos hl, hl]; rfl
      · rw [if_neg hl]; rfl
    · rw [if_neg (Ne.symm hk)]
      have : List.count k [windowAfter n (done ++ [g])] = 0 := by
        rw [List.count_eq_zero]; simpa using hk
      rw [this]; rfl

theorem textInv_foldl {n : Nat} (hn : 1 ≤ n) {f0 : List (MNode G)} {posts : List G → List Product} {p : Product}
    (rest : List G) : ∀ {done : List G} {st : BuildState G}, TextInv n f0 posts p done st →
    TextInv n f0 posts p (done ++ rest) (rest.foldl (buildGram n p) st) := by
  induction rest with
  | nil => intro done st h; simpa using h
  | cons g rest ih =>
    intro done st h
    have := ih (textInv_step hn h g)
    simpa using this

/-! ## All texts -/

/-- Posting list of `k` over all texts. -/
def postings (n : Nat) (feeds : List (List G × Product)) (k : List G) : List Product :=
  feeds.flatMap (postingOf n k)

structure FeedsInv (n : Nat) (feeds : List (List G × Product))
    (acc : List (MNode G) × AMap (List G) (List Product)) : Prop where
  ok : ForestOk acc.1
  occ : ∀ q, occAt acc.1 q = if 1 ≤ q.length ∧ q.length ≤ n then occurrencesIn q (feeds.map (·.1)) else 0
  wf : AMap.Wf acc.2
  data : ∀ k, AMap.get acc.2 k = asPosting (postings n feeds k)

theorem occAt_nil (q : List G) : occAt ([] : List (MNode G)) q = 0 := by
  cases q with
  | nil => rfl
  | cons g path => simp [occAt, nodeAt_nil]

theorem feedsInv_nil (n : Nat) : FeedsInv n ([] : List (List G × Product)) ([], []) :=
  ⟨ForestOk.nil, fun q => by simp [occAt_nil, occurrencesIn], AMap.Wf.nil, fun k => by simp [AMap.get, asPosting, postings]⟩

theorem feedsInv_step {n : Nat} (hn : 1 ≤ n) {feeds : List (List G × Product)} {acc}
    (h : FeedsInv n feeds acc) (feed : List G × Product) :
    FeedsInv n (feeds ++ [feed]) (buildFeed n acc feed) := by
  have h0 : TextInv n acc.1 (postings n feeds) feed.2 []
      { root := acc.1, data := acc.2, queue := [], lookback := List.replicate n dflt } := by
    refine ⟨h.ok, by simp [suffixPaths], fun q => by simp [occurrences_nil], by simp [windowAfter], h.wf, fun k => ?_⟩
    rw [h.data]; simp [postingOf, paddedWindows_nil]
  have h1 := textInv_foldl hn feed.1 h0
  rw [List.nil_append] at h1
  refine ⟨h1.ok, fun q => ?_, h1.wf, fun k => ?_⟩
  · simp only [buildFeed]
    rw [h1.occ, h.occ, List.map_append, occurrencesIn, occurrencesIn]
    simp only [List.map_append, List.sum_append, List.map_cons, List.map_nil, List.sum_cons, List.sum_nil]
    split <;> simp
  · simp only [buildFeed]
    rw [h1.data, postings, postings, List.flatMap_append]
    simp

theorem feedsInv_foldl {n : Nat} (hn : 1 ≤ n) (rest : List (List G × Product)) : ∀ {feeds} {acc},
    FeedsInv n feeds acc → FeedsInv n (feeds ++ rest) (rest.foldl (buildFeed n) acc) := by
  induction rest with
  | nil => intro feeds acc h; simpa using h
  | cons feed rest ih =>
    intro feeds acc h
    have := ih (feedsInv_step hn h feed)
    simpa using this

theorem feedsInv {n : Nat} (hn : 1 ≤ n) (feeds : List (List G × Product)) :
    FeedsInv n feeds (feeds.foldl (buildFeed n) ([], [])) := by
  simpa using feedsInv_foldl hn feeds (feedsInv_nil n)

/-! ## The finished tree -/

/-- The number of grams is the sum of the root counts. -/
theorem sum_occ_bumpHere (f : List (MNode G)) (g : G) :
    ((bumpHere f g).map (·.occ)).sum = (f.map (·.occ)).sum + 1 := by
  induction f with
  | nil => simp [bumpHere]
  | cons m f ih =>
    simp only [bumpHere]
    split
    · simp; omega
    · simp [ih]; omega

theorem sum_occ_modifyChild (f : List (MNode G)) (g : G) (upd) :
    ((modifyChild f g upd).map (·.occ)).sum = (f.map (·.occ)).sum := by
  induction f with
  | nil => rfl
  | cons m f ih =>
    simp only [modifyChild]
    split
    · simp
    · simp [ih]

theorem sum_occ_advanceQueue (g : G) (queue : List (List G)) (hq : ∀ path ∈ queue, path ≠ []) :
    ∀ (f : List (MNode G)), ((advanceQueue g queue f).2.map (·.occ)).sum = (f.map (·.occ)).sum := by
  induction queue with
  | nil => intro f; rfl
  | cons path queue ih =>
    intro f
    simp only [advanceQueue]
    rw [ih (fun p hp => hq p (by simp [hp]))]
    cases path with
    | nil => exact absurd rfl (hq [] (by simp))
    | cons h path => simp only [bumpAt, sum_occ_modifyChild]

theorem mem_dropLast_of_if {α : Type} {l : List α} {c : Prop} [Decidable c] {a : α}
    (h : a ∈ (if c then l.dropLast else l)) : a ∈ l := by
  split at h
  · exact (List.dropLast_sublist l).mem h
  · exact h

theorem sum_occ_text (n : Nat) (p : Product) (text : List G) : ∀ (st : BuildState G), (∀ path ∈ st.queue, path ≠ []) →
    ((text.foldl (buildGram n p) st).root.map (·.occ)).sum = (st.root.map (·.occ)).sum + text.length := by
  induction text with
  | nil => intro st _; rfl
  | cons g text ih =>
    intro st hq
    simp only [List.foldl_cons, List.length_cons]
    rw [ih]
    · simp only [buildGram]
      rw [sum_occ_advanceQueue g _ hq, sum_occ_bumpHere]; omega
    · intro path hp
      simp only [buildGram] at hp
      have := mem_dropLast_of_if hp
      rcases List.mem_cons.1 this with rfl | h
      · simp
      · rw [advanceQueue_fst] at h
        obtain ⟨q, _, rfl⟩ := List.mem_map.1 h
        simp

theorem sum_occ_feeds (n : Nat) (feeds : List (List G × Product)) : ∀ acc,
    ((feeds.foldl (buildFeed n) acc).1.map (·.occ)).sum =
      (acc.1.map (·.occ)).sum + (feeds.map (·.1.length)).sum := by
  induction feeds with
  | nil => intro acc; simp
  | cons feed feeds ih =>
    intro acc
    simp only [List.foldl_cons, ih, buildFeed, List.map_cons, List.sum_cons]
    rw [sum_occ_text n feed.2 feed.1 _ (by simp)]
    simp only; omega

@[simp] theorem GramNode.item_mk (i : G) (w : F32) (l : List (GramNode G)) : (GramNode.mk i w l).item = i := rfl
@[simp] theorem GramNode.weight_mk (i : G) (w : F32) (l : List (GramNode G)) : (GramNode.mk i w l).weight = w := rfl
@[simp] theorem GramNode.byOcc_mk (i : G) (w : F32) (l : List (GramNode G)) : (GramNode.mk i w l).byOcc = l := rfl

theorem immutalize_item (o : HashOrd) (path : List G) (k : Nat) (m : MNode G) :
    (immutalize o path k m).item = m.item := by
  cases m; simp only [immutalize, GramNode.item_mk, MNode.item_mk]

theorem GramNode.weight_of_eq {n : GramNode G} {i : G} {w : F32} {l : List (GramNode G)} (h : n = .mk i w l) :
    n.weight = w := by subst h; rfl

theorem immutalize_weight (o : HashOrd) (path : List G) (k : Nat) (m : MNode G) :
    (immutalize o path k m).weight = occurancesToWeight k m.occ := by
  cases m with
  | mk i occ l => exact GramNode.weight_of_eq (immutalize.eq_1 o path k i occ l)

/-- Children of a finished node, up to order. -/
theorem immutalize_byOcc (o : HashOrd) (path : List G) (k : Nat) (m : MNode G) :
    (immutalize o path k m).byOcc.Perm (m.items.map (immutalize o (path ++ [m.item]) m.occ)) := by
  cases m with
  | mk i occ l =>
    rw [immutalize]
    simp only [GramNode.byOcc_mk, MNode.items_mk, MNode.item_mk, MNode.occ_mk]
    refine (stableSort_perm _ _).trans ((o.perm _ _).trans ?_)
    have : (l.attach.map fun x => immutalize o (path ++ [i]) occ x.val) = l.map (immutalize o (path ++ [i]) occ) := by
      have := List.attach_map_val (l := l) (f := immutalize o (path ++ [i]) occ)
      exact this
    rw [this]

/-- Lookup of a list of finished nodes by item. -/
theorem get_items_of_perm {l : List (GramNode G)} {ms : List (MNode G)} {f : MNode G → GramNode G}
    (hp : l.Perm (ms.map f)) (hf : ∀ m, (f m).item = m.item) (hn : (ms.map (·.item)).Nodup) (g : G) :
    AMap.get (l.map fun c => (c.item, c)) g = (childOf ms g).map f := by
  have hwf : AMap.Wf ((ms.map f).map fun c => (c.item, c)) := by
    simp only [AMap.Wf, List.map_map]
    have : ((fun x : G × GramNode G => x.1) ∘ (fun c : GramNode G => (c.item, c)) ∘ f) = fun m => m.item := by
      funext m; simp [hf]
    rw [this]; exact hn
  rw [AMap.get_perm hwf (hp.map _)]
  clear hwf hp hn
  induction ms with
  | nil => rfl
  | cons m ms ih =>
    rw [List.map_cons, List.map_cons, AMap.get_cons, childOf_cons, ih, hf]
    by_cases h : m.item = g <;> simp [h]

theorem immutalize_items_get (o : HashOrd) (path : List G) (k : Nat) (m : MNode G) (hn : (m.items.map (·.item)).Nodup)
    (g : G) : AMap.get (immutalize o path k m).items g =
      (childOf m.items g).map (immutalize o (path ++ [m.item]) m.occ) := by
  have hp := immutalize_byOcc o path k m
  have hwf : AMap.Wf ((immutalize o path k m).byOcc.map fun c => (c.item, c)) := by
    simp only [AMap.Wf, List.map_map]
    have e : ((fun x : G × GramNode G => x.1) ∘ (fun c : GramNode G => (c.item, c))) = fun c => c.item := rfl
    rw [e]
    refine ((hp.map (·.item)).nodup_iff).2 ?_
    rw [List.map_map]
    have : ((fun x : GramNode G => x.item) ∘ immutalize o (path ++ [m.item]) m.occ) = fun m => m.item := by
      funext m; simp [immutalize_item]
    rw [this]; exact hn
  rw [GramNode.items, AMap.collect_of_wf hwf]
  exact get_items_of_perm hp (immutalize_item o _ _) hn g

/-- Walk down the finished tree. -/
def GramNode.walk (n : GramNode G) : List G → Option (GramNode G)
  | [] => some n
  | g :: path => (AMap.get n.items g).bind fun c => c.walk path

/-- The node of the index at a non-empty path. -/
def GramIndex.nodeAt (ix : GramIndex G) : List G → Option (GramNode G)
  | [] => none
  | g :: path => (AMap.get ix.roots g).bind fun n => n.walk path

end Idx
