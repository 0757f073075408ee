import Verif.Lemmas.Index
import Verif.Lemmas.Cutoff
import Verif.Props.Optimize
import Verif.Lemmas.File
/-! # C21–C23, C30, C47: the n-gram index built from a catalogue

All theorems are about `buildAll`, the two indexes made by `index_and_serialize_with_n`. -/
namespace Idx

/-- The text searched for an input product: description, title, vendor, lower-cased. -/
def textOf (lower : Char → List Char) (raw : RawProduct) : List Char :=
  (raw.description ++ raw.title ++ raw.vendor).flatMap lower

/-- Number of characters in all texts. -/
def totalChars (lower : Char → List Char) (input : List RawProduct) : Nat :=
  (input.map fun raw => (textOf lower raw).length).sum

/-- The posting list the catalogue calls for: every product once per occurrence in its padded text. -/
def expectedPostings (lower : Char → List Char) (n : Nat) (products : List Product) (input : List RawProduct)
    (k : List Char) : List Product :=
  (products.zip input).flatMap fun e => List.replicate ((paddedWindows n (textOf lower e.2)).count k) e.1

/-- What `buildAll` did, when it succeeded. -/
structure BuiltAll (t : Target) (o : HashOrd) (lower : Char → List Char) (parse : Str → Option F32) (n : Nat)
    (input : List RawProduct) (ix : GramIndex Char) (cl : Classic) : Prop where
  built : ∃ prices, Built parse o input ix.container cl prices
  index : ix = indexFrom t o n (ix.container.products.map (feedOf lower)) ix.container

theorem builtAll_of_ok {t o lower parse n input ix cl} (h : buildAll t o lower parse n input = .ok (ix, cl)) :
    BuiltAll t o lower parse n input ix cl := by
  unfold buildAll at h
  obtain ⟨⟨c, cl'⟩, h1, h2⟩ := Res.bind_eq_ok.1 h
  simp only [Res.pure_eq, Res.ok.injEq, Prod.mk.injEq] at h2
  obtain ⟨rfl, rfl⟩ := h2
  exact ⟨built_of_ok h1, rfl⟩

theorem buildAll_ok (t : Target) (o : HashOrd) (lower : Char → List Char) (parse : Str → Option F32) (n : Nat)
    (input : List RawProduct) (prices : List F32)
    (hp : input.map (fun raw => parse raw.price.min.amount) = prices.map some) :
    ∃ ix cl, buildAll t o lower parse n input = .ok (ix, cl) := by
  obtain ⟨c, cl, h, _⟩ := optimize_ok o parse input prices hp
  exact ⟨_, _, by unfold buildAll; rw [h]; rfl⟩

theorem Built.texts {parse o input c cl prices} (b : Built parse o input c cl prices) (lower : Char → List Char) :
    (c.products.map (feedOf lower)).map (·.1) = input.map (textOf lower) := by
  apply List.ext_getElem?
  intro i
  simp only [List.getElem?_map, b.getElem?]
  cases hi : input[i]? with
  | none => rfl
  | some raw =>
    obtain ⟨v, hv, e, _⟩ := b.vendor raw (List.mem_of_getElem? hi)
    simp [feedOf, textOf, productOf, hv, e]

theorem Built.total {parse o input c cl prices} (b : Built parse o input c cl prices) (lower : Char → List Char) :
    totalGrams (c.products.map (feedOf lower)) = totalChars lower input := by
  have := congrArg (fun l => (l.map List.length).sum) (b.texts lower)
  simp only [List.map_map] at this
  exact (by simpa [totalGrams, totalChars, Function.comp_def] using this)

theorem Built.postings_eq {parse o input c cl prices} (b : Built parse o input c cl prices) (lower : Char → List Char)
    (n : Nat) (k : List Char) : postings n (c.products.map (feedOf lower)) k =
      expectedPostings lower n c.products input k := by
  have ht := b.texts lower
  rw [List.map_map] at ht
  have : ∀ (ps : List Product) (rs : List RawProduct),
      (ps.map ((·.1) ∘ feedOf lower)) = rs.map (textOf lower) →
      postings n (ps.map (feedOf lower)) k = expectedPostings lower n ps rs k := by
    intro ps
    induction ps with
    | nil =>
      intro rs h
      cases rs with
      | nil => rfl
      | cons r rs => simp at h
    | cons p ps ih =>
      intro rs h
      cases rs with
      | nil => simp at h
      | cons r rs =>
        simp only [List.map_cons, List.cons.injEq, Function.comp_apply] at h
        have := ih rs h.2
        simp only [postings, expectedPostings, List.map_cons, List.flatMap_cons, List.zip_cons_cons] at this ⊢
        rw [this, postingOf, h.1]
        rfl
  exact this _ _ ht

/-! ## C21 -/

/-- A path is in the tree iff it has at most N grams and occurs inside one product's text. -/
theorem C21_path_iff_substring {t : Target} {o : HashOrd} {lower : Char → List Char} {parse : Str → Option F32} {n : Nat}
    {input : List RawProduct} {ix : GramIndex Char} {cl : Classic} (hn : 1 ≤ n)
    (h : buildAll t o lower parse n input = .ok (ix, cl)) (path : List Char) (hp : path ≠ []) :
    (∃ node, ix.Has path node) ↔ path.length ≤ n ∧ ∃ raw ∈ input, path <:+: textOf lower raw := by
  have hb := builtAll_of_ok h
  obtain ⟨prices, b⟩ := hb.built
  have hk : ix.Keyed := by rw [hb.index]; exact indexFrom_keyed t o hn _ _
  have e1 : (∃ node, ix.Has path node) ↔ (ix.nodeAt path).isSome := by
    simp only [hk.has_iff, Option.isSome_iff_exists]
  rw [e1]
  cases path with
  | nil => exact absurd rfl hp
  | cons g path =>
    have h1 : 1 ≤ (g :: path).length := by simp
    rw [hb.index, indexFrom_nodeAt t o hn, Option.isSome_map, ← occAt_pos_iff (forest_ok hn _), forest_occ hn, b.texts]
    have h2 := occurrencesIn_pos_iff (g :: path) (input.map (textOf lower)) hp
    constructor
    · intro hpos
      split at hpos
      · rename_i hc
        obtain ⟨text, ht, hi⟩ := h2.1 hpos
        obtain ⟨raw, hr, rfl⟩ := List.mem_map.1 ht
        exact ⟨hc.2, raw, hr, hi⟩
      · omega
    · rintro ⟨hl, raw, hr, hi⟩
      rw [if_pos ⟨h1, hl⟩]
      exact h2.2 ⟨_, List.mem_map_of_mem hr, hi⟩

/-- The count a path's weight is divided by. -/
def parentCount (lower : Char → List Char) (input : List RawProduct) (path : List Char) : Nat :=
  if path.length = 1 then totalChars lower input else occurrencesIn path.dropLast (input.map (textOf lower))

/-- The weight of a path is its number of occurrences divided by its parent's. -/
theorem C21_weight {t : Target} {o : HashOrd} {lower : Char → List Char} {parse : Str → Option F32} {n : Nat}
    {input : List RawProduct} {ix : GramIndex Char} {cl : Classic} (hn : 1 ≤ n)
    (h : buildAll t o lower parse n input = .ok (ix, cl)) (path : List Char) (node : GramNode Char)
    (hnode : ix.Has path node) :
    path.getLast? = some node.item ∧
    node.weight = F32.div (F32.ofNat (occurrencesIn path (input.map (textOf lower))))
      (F32.ofNat (parentCount lower input path)) := by
  have hb := builtAll_of_ok h
  obtain ⟨prices, b⟩ := hb.built
  have hk : ix.Keyed := by rw [hb.index]; exact indexFrom_keyed t o hn _ _
  rw [hk.has_iff] at hnode
  cases path with
  | nil => simp [GramIndex.nodeAt] at hnode
  | cons g path =>
    have hle := ((C21_path_iff_substring hn h (g :: path) (by simp)).1 ⟨node, (hk.has_iff _ _).2 hnode⟩).1
    rw [hb.index, indexFrom_nodeAt t o hn] at hnode
    cases hm : nodeAt (forestOf n (ix.container.products.map (feedOf lower))) g path with
    | none => rw [hm] at hnode; simp at hnode
    | some m =>
      rw [hm] at hnode
      simp only [Option.map_some, Option.some.injEq] at hnode
      have ho := forest_occ hn (ix.container.products.map (feedOf lower)) (g :: path)
      have hm' : occAt (forestOf n (ix.container.products.map (feedOf lower))) (g :: path) = m.occ := by
        simp [occAt, hm]
      rw [hm', if_pos ⟨by simp, hle⟩, b.texts] at ho
      rw [← hnode, immutalize_item, immutalize_weight, ho, occurancesToWeight]
      refine ⟨(nodeAt_item hm).symm, ?_⟩
      congr 2
      cases path with
      | nil => simp [parentCount, b.total]
      | cons x path =>
        rw [if_neg (by simp), forest_occ hn, b.texts, if_pos]
        · simp [parentCount]
        · simp only [List.length_dropLast, List.length_cons] at *; omega

/-! ## C22 -/

theorem Built.expected_sorted {parse o input c cl prices} (b : Built parse o input c cl prices)
    (lower : Char → List Char) (n : Nat) (k : List Char) :
    (expectedPostings lower n c.products input k).Pairwise fun p q => p.sid ≤ q.sid := by
  have hs : (c.products.zip input).Pairwise fun a b => a.1.sid < b.1.sid := by
    rw [List.pairwise_iff_getElem]
    intro i j hi hj hij
    have hi' : i < c.products.length := by simp at hi; omega
    have hj' : j < c.products.length := by simp at hj; omega
    have e1 := b.sid i _ (List.getElem?_eq_getElem hi')
    have e2 := b.sid j _ (List.getElem?_eq_getElem hj')
    simp only [List.getElem_zip]
    omega
  unfold expectedPostings
  generalize c.products.zip input = l at hs
  rw [List.pairwise_flatMap]
  constructor
  · intro e _
    rw [List.pairwise_replicate]; exact .inr (Nat.le_refl _)
  · refine hs.imp ?_
    intro a b hab x hx y hy
    rw [List.eq_of_mem_replicate hx, List.eq_of_mem_replicate hy]
    omega

/-- The kept posting lists are exactly the ones the catalogue calls for that are shorter than the cut-off. -/
theorem C22_postings {t : Target} {o : HashOrd} {lower : Char → List Char} {parse : Str → Option F32} {n : Nat}
    {input : List RawProduct} {ix : GramIndex Char} {cl : Classic} (hn : 1 ≤ n)
    (h : buildAll t o lower parse n input = .ok (ix, cl)) (k : List Char) :
    AMap.get ix.data k =
      let l := expectedPostings lower n ix.container.products input k
      if l ≠ [] ∧ l.length < maximumProductAmount t input.length then some l else none := by
  have hb := builtAll_of_ok h
  obtain ⟨prices, b⟩ := hb.built
  have e : AMap.get ix.data k = AMap.get (indexFrom t o n (ix.container.products.map (feedOf lower)) ix.container).data k := by
    conv => lhs; rw [hb.index]
  rw [e, data_get t o hn, b.postings_eq, b.length]
  have hs := b.expected_sorted lower n k
  have : stableSort (fun a b : Product => decide (a.sid ≤ b.sid)) (expectedPostings lower n ix.container.products input k) =
      expectedPostings lower n ix.container.products input k := by
    apply stableSort_of_sorted
    exact hs.imp (by simp)
  simp only [this]

/-- The kept lists are in ascending position. -/
theorem C22_ascending {t : Target} {o : HashOrd} {lower : Char → List Char} {parse : Str → Option F32} {n : Nat}
    {input : List RawProduct} {ix : GramIndex Char} {cl : Classic} (hn : 1 ≤ n)
    (h : buildAll t o lower parse n input = .ok (ix, cl)) (k : List Char) (l : List Product)
    (hl : AMap.get ix.data k = some l) : l.Pairwise fun p q => p.sid ≤ q.sid := by
  rw [C22_postings hn h] at hl
  obtain ⟨prices, b⟩ := (builtAll_of_ok h).built
  simp only at hl
  split at hl
  · cases hl; exact b.expected_sorted lower n k
  · cases hl

/-- Up to 2^20 products the cut-off is 80 % of the product count, rounded down. -/
theorem C22_cutoff (t : Target) (ht : t.Real) (count : Nat) (h : count ≤ 2 ^ 20) :
    maximumProductAmount t count = 4 * count / 5 :=
  maximumProductAmount_eq t (by rcases ht with h | h <;> omega) h

/-! ## C23 -/

/-- Weights are finite, at least 2^-32 and at most 1 (in units of 2^-149), children are sorted by weight and
carry distinct grams. -/
theorem C23_weights {t : Target} {o : HashOrd} {lower : Char → List Char} {parse : Str → Option F32} {n : Nat}
    {input : List RawProduct} {ix : GramIndex Char} {cl : Classic} (hn : 1 ≤ n)
    (h : buildAll t o lower parse n input = .ok (ix, cl)) (hsize : totalChars lower input ≤ 2 ^ 32)
    (path : List Char) (node : GramNode Char) (hnode : ix.Has path node) :
    (∃ m, node.weight.val = .fin false m ∧ 2 ^ 117 ≤ m ∧ m ≤ 2 ^ 149) ∧
    node.byOcc.Pairwise (fun a b => F32.lt a.weight b.weight = false) ∧
    (node.byOcc.map (·.item)).Nodup := by
  have hb := builtAll_of_ok h
  obtain ⟨prices, b⟩ := hb.built
  have hk : ix.Keyed := by rw [hb.index]; exact indexFrom_keyed t o hn _ _
  have hnode' := (hk.has_iff _ _).1 hnode
  have hw := (C21_weight hn h path node hnode).2
  have hne : path ≠ [] := by rintro rfl; simp [GramIndex.nodeAt] at hnode'
  obtain ⟨hle, raw, hraw, hinf⟩ := (C21_path_iff_substring hn h path hne).1 ⟨node, hnode⟩
  have hpos := (occurrencesIn_pos_iff path (input.map (textOf lower)) hne).2 ⟨_, List.mem_map_of_mem hraw, hinf⟩
  have htot : ∀ q, occurrencesIn q (input.map (textOf lower)) ≤ totalChars lower input := by
    intro q
    rw [← b.texts, ← b.total]; exact occurrencesIn_le_total q _
  refine ⟨?_, ?_, hk.siblings _ _ hnode'⟩
  · rw [hw]
    apply F32.inUnit_div hpos
    · unfold parentCount
      split
      · exact htot path
      · have := occurrencesIn_append_le path.dropLast [path.getLast hne] (input.map (textOf lower))
        rwa [List.dropLast_concat_getLast] at this
    · unfold parentCount
      split
      · exact hsize
      · exact Nat.le_trans (htot _) hsize
  · cases path with
    | nil => exact absurd rfl hne
    | cons g path =>
      rw [hb.index, indexFrom_nodeAt t o hn] at hnode'
      cases hm : nodeAt (forestOf n (ix.container.products.map (feedOf lower))) g path with
      | none => rw [hm] at hnode'; simp at hnode'
      | some m =>
        rw [hm] at hnode'
        simp only [Option.map_some, Option.some.injEq] at hnode'
        have hm' : occAt (forestOf n (ix.container.products.map (feedOf lower))) (g :: path) = m.occ := by
          simp [occAt, hm]
        rw [forest_occ hn, if_pos ⟨by simp, hle⟩, b.texts] at hm'
        rw [← hnode']
        have hok := nodeAt_ok (forest_ok hn _) hm
        apply immutalize_sorted
        · intro c hc
          refine ⟨hok.pos c hc, ?_⟩
          have hcn := nodeAt_append hm c.item
          rw [childOf_mem hok.nodup hc] at hcn
          have hc' : occAt (forestOf n (ix.container.products.map (feedOf lower))) (g :: (path ++ [c.item])) = c.occ := by
            simp [occAt, hcn]
          rw [forest_occ hn, b.texts] at hc'
          rw [← hc', ← hm']
          split
          · exact occurrencesIn_append_le (g :: path) [c.item] _
          · exact Nat.zero_le _
        · rw [← hm']; exact Nat.le_trans (htot _) hsize

/-- Roots are keyed by their own gram, each once. -/
theorem C23_roots {t : Target} {o : HashOrd} {lower : Char → List Char} {parse : Str → Option F32} {n : Nat}
    {input : List RawProduct} {ix : GramIndex Char} {cl : Classic} (hn : 1 ≤ n)
    (h : buildAll t o lower parse n input = .ok (ix, cl)) :
    (ix.roots.map (·.1)).Nodup ∧ ∀ g r, (g, r) ∈ ix.roots → r.item = g := by
  have hk : ix.Keyed := by rw [(builtAll_of_ok h).index]; exact indexFrom_keyed t o hn _ _
  exact ⟨hk.roots, hk.rootItem⟩

/-! ## C30: posting part -/

/-- With at most two products no posting list is kept. -/
theorem C30_no_postings {t : Target} (ht : t.Real) {o : HashOrd} {lower : Char → List Char}
    {parse : Str → Option F32} {n : Nat} {input : List RawProduct} {ix : GramIndex Char} {cl : Classic} (hn : 1 ≤ n)
    (h : buildAll t o lower parse n input = .ok (ix, cl)) (h2 : input.length ≤ 2) (k : List Char) :
    AMap.get ix.data k = none := by
  rw [C22_postings hn h, C22_cutoff t ht _ (by omega)]
  have : ∀ l : List Product, l ≠ [] → 1 ≤ l.length := fun l hl => List.length_pos_iff.2 hl
  simp only
  rw [if_neg]
  rintro ⟨h3, h4⟩
  have := this _ h3
  omega

/-! ## C47 -/

theorem popularFrom_spec : ∀ node : GramNode Char, ∃ rest, popularFrom node = node.item :: rest := by
  intro node
  cases node with
  | mk i w l => cases l <;> exact ⟨_, rfl⟩

/-- One link of the chain of most popular grams, described from the index alone: `chain` leads from a node to a
leaf, each step to a child of maximal weight. -/
inductive PopularChain : GramNode Char → List Char → Prop where
  | leaf {node : GramNode Char} : node.byOcc = [] → PopularChain node [node.item]
  | step {node next : GramNode Char} {rest : List Char} : next ∈ node.byOcc →
      (∀ c ∈ node.byOcc, F32.lt next.weight c.weight = false) → PopularChain next rest →
      PopularChain node (node.item :: rest)

theorem lt_self_false {x : F32} : F32.lt x x = false := by
  cases h : F32.lt x x with
  | false => rfl
  | true => have := F32.lt_asymm h; rw [h] at this; exact this

theorem popularFrom_chain (ix : GramIndex Char)
    (hs : ∀ path node, ix.Has path node → node.byOcc.Pairwise fun a b => F32.lt a.weight b.weight = false) :
    ∀ (k : Nat) (node : GramNode Char) (path : List Char), node.depth ≤ k → ix.Has path node →
      PopularChain node (popularFrom node) ∧ ∃ last, ix.Has (path ++ (popularFrom node).tail) last := by
  intro k
  induction k with
  | zero => intro node path hd; cases node; rw [GramNode.depth] at hd; omega
  | succ k ih =>
    intro node path hd hh
    cases node with
    | mk i w l =>
      cases l with
      | nil =>
        simp only [popularFrom, List.tail_cons, List.append_nil]
        exact ⟨.leaf rfl, _, hh⟩
      | cons c l =>
        have hp := hs _ _ hh
        simp only [GramNode.byOcc_mk, List.pairwise_cons] at hp
        have hhc : ix.Has (path ++ [c.item]) c := .child hh (by simp)
        obtain ⟨h1, last, h2⟩ := ih c _ (by
          have := GramNode.depth_child (i := i) (w := w) (l := c :: l) (c := c) (by simp)
          omega) hhc
        obtain ⟨rest, hrest⟩ := popularFrom_spec c
        simp only [popularFrom, List.tail_cons]
        refine ⟨.step (next := c) (by simp) ?_ h1, last, ?_⟩
        · intro d hd
          rcases List.mem_cons.1 hd with rfl | hd
          · exact lt_self_false
          · exact hp.1 d hd
        · rw [hrest] at h2 ⊢
          simpa using h2

/-- `most_popular_chain` follows children of maximal weight down to a leaf, starts with the given gram, and its
grams form a path of the tree of length at most N; it is empty iff the gram is not indexed. -/
theorem C47_popular_chain {t : Target} {o : HashOrd} {lower : Char → List Char} {parse : Str → Option F32} {n : Nat}
    {input : List RawProduct} {ix : GramIndex Char} {cl : Classic} (hn : 1 ≤ n)
    (h : buildAll t o lower parse n input = .ok (ix, cl)) (hsize : totalChars lower input ≤ 2 ^ 32) (g : Char) :
    (ix.mostPopularChain g = [] ∧ ∀ raw ∈ input, g ∉ textOf lower raw) ∨
    ∃ root, ix.Has [g] root ∧ PopularChain root (ix.mostPopularChain g) ∧
      (ix.mostPopularChain g).head? = some g ∧ (ix.mostPopularChain g).length ≤ n ∧
      ∃ raw ∈ input, ix.mostPopularChain g <:+: textOf lower raw := by
  have hk : ix.Keyed := by rw [(builtAll_of_ok h).index]; exact indexFrom_keyed t o hn _ _
  cases hg : AMap.get ix.roots g with
  | none =>
    left
    refine ⟨by simp [GramIndex.mostPopularChain, hg], ?_⟩
    intro raw hr hmem
    obtain ⟨s, e, hse⟩ := List.append_of_mem hmem
    obtain ⟨node, hnode⟩ := (C21_path_iff_substring hn h [g] (by simp)).2
      ⟨by simpa using hn, raw, hr, s, e, by rw [hse]; simp⟩
    rw [hk.has_iff] at hnode
    simp [GramIndex.nodeAt, hg] at hnode
  | some root =>
    right
    have hroot : ix.Has [g] root := .root (AMap.mem_of_get hg)
    have e : ix.mostPopularChain g = popularFrom root := by simp [GramIndex.mostPopularChain, hg]
    obtain ⟨h1, last, h2⟩ := popularFrom_chain ix (fun path node hh => (C23_weights hn h hsize path node hh).2.1)
      _ root [g] (Nat.le_refl _) hroot
    obtain ⟨rest, hrest⟩ := popularFrom_spec root
    have hi := hk.rootItem g root (AMap.mem_of_get hg)
    rw [hi] at hrest
    have e2 : [g] ++ (popularFrom root).tail = popularFrom root := by rw [hrest]; rfl
    rw [e2] at h2
    obtain ⟨h3, h4⟩ := (C21_path_iff_substring hn h (popularFrom root) (by rw [hrest]; simp)).1 ⟨last, h2⟩
    refine ⟨root, hroot, by rw [e]; exact h1, by rw [e, hrest]; rfl, by rw [e]; exact h3, by rw [e]; exact h4⟩

/-! ## The hypotheses are met -/

/-- The catalogue of `Props.Optimize` is indexed, for every size. -/
example (n : Nat) : ∃ ix cl, buildAll .debug64 .rev (fun c => [c]) (fun _ => some F32.one) n sampleInput = .ok (ix, cl) :=
  buildAll_ok _ _ _ _ _ _ [F32.one, F32.one] rfl

/-- It is small enough, and its tree is not empty. -/
example : totalChars (fun c => [c]) sampleInput ≤ 2 ^ 32 := by decide
example {ix cl} (h : buildAll .debug64 .rev (fun c => [c]) (fun _ => some F32.one) 3 sampleInput = .ok (ix, cl)) :
    ∃ node, ix.Has ['d', 'b', 'v'] node :=
  (C21_path_iff_substring (by omega) h _ (by simp)).2 ⟨by simp, _, List.mem_cons_self, List.infix_refl _⟩

end Idx
