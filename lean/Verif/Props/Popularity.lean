import Verif.Model.Popularity
import Verif.Props.Index
import Verif.Props.Cost
import Verif.Props.Extent

/-! # C105: the table of how popular n-grams are -/
namespace Idx

/-- How many entries have a list of this length. -/
def amount (l : List (List Char × List Product)) (m : Nat) : Nat := l.countP fun e => e.2.length == m

/-- How many of them are alone and have a space. -/
def spaced (isSpace : Char → Bool) (l : List (List Char × List Product)) : Nat :=
  l.countP fun e => e.2.length == 1 && e.1.any isSpace

structure Counted (isSpace : Char → Bool) (done : List (List Char × List Product)) (st : Nat × AMap Nat Nat) : Prop where
  ones : st.1 = spaced isSpace done
  wf : AMap.Wf st.2
  get : ∀ m, AMap.get st.2 m = if amount done m = 0 then none else some (amount done m)

theorem countUp_ok {bits v r : Nat} (h : countUp bits v = .ok r) : r = v + 1 := by
  unfold countUp at h
  split at h <;> cases h
  rfl

theorem amount_snoc (done : List (List Char × List Product)) (e : List Char × List Product) (m : Nat) :
    amount (done ++ [e]) m = amount done m + if e.2.length = m then 1 else 0 := by
  simp [amount, List.countP_append, List.countP_cons]

theorem spaced_snoc (isSpace : Char → Bool) (done : List (List Char × List Product)) (e : List Char × List Product) :
    spaced isSpace (done ++ [e]) = spaced isSpace done + if e.2.length = 1 ∧ e.1.any isSpace then 1 else 0 := by
  simp [spaced, List.countP_append, List.countP_cons]

theorem Counted.step {isSpace : Char → Bool} {done : List (List Char × List Product)} {st st' : Nat × AMap Nat Nat}
    (c : Counted isSpace done st) {e : List Char × List Product} (h : popularityStep isSpace st e = .ok st') :
    Counted isSpace (done ++ [e]) st' := by
  unfold popularityStep at h
  obtain ⟨ones, h1, h⟩ := bind_ok h
  obtain ⟨table, h2, h⟩ := bind_ok h
  cases h
  refine ⟨?_, ?_, ?_⟩
  · rw [spaced_snoc, ← c.ones]
    unfold countSingle at h1
    split at h1
    · rename_i hc
      rw [if_pos hc, countUp_ok h1]
    · rename_i hc
      cases h1
      rw [if_neg hc]
      rfl
  · unfold countEntry at h2
    split at h2
    · obtain ⟨v, _, h2⟩ := bind_ok h2
      cases h2
      exact c.wf.insert _ _
    · cases h2
      exact c.wf.insert _ _
  · have key : ∀ v, table = AMap.insert st.2 e.2.length v → v = amount done e.2.length + 1 → ∀ m, AMap.get table m =
        if amount (done ++ [e]) m = 0 then none else some (amount (done ++ [e]) m) := by
      rintro v rfl hv m
      rw [AMap.get_insert, amount_snoc]
      split
      · rename_i hm
        subst hm
        rw [hv]
        exact (if_neg (Nat.succ_ne_zero _)).symm
      · rename_i hm
        rw [c.get, Nat.add_zero]
    unfold countEntry at h2
    have hg := c.get e.2.length
    split at h2
    · rename_i v hv
      obtain ⟨v', h3, h2⟩ := bind_ok h2
      cases h2
      rw [hv] at hg
      refine key v' rfl ?_
      rw [countUp_ok h3]
      split at hg <;> cases hg
      rfl
    · rename_i hv
      cases h2
      rw [hv] at hg
      refine key 1 rfl ?_
      split at hg
      · omega
      · cases hg

theorem counted_fold {isSpace : Char → Bool} : ∀ (l done : List (List Char × List Product)) {st st' : Nat × AMap Nat Nat},
    Counted isSpace done st → l.foldlM (popularityStep isSpace) st = .ok st' → Counted isSpace (done ++ l) st'
  | [], done, st, st', c, h => by cases h; simpa using c
  | e :: l, done, st, st', c, h => by
    rw [List.foldlM_cons] at h
    obtain ⟨st₁, h1, h⟩ := bind_ok h
    have := counted_fold l (done ++ [e]) (c.step h1) h
    simpa using this

theorem counted_nil (isSpace : Char → Bool) : Counted isSpace [] (0, []) := ⟨rfl, AMap.Wf.nil, fun _ => rfl⟩

theorem amount_append (a b : List (List Char × List Product)) (m : Nat) : amount (a ++ b) m = amount a m + amount b m := List.countP_append

theorem spaced_append (isSpace : Char → Bool) (a b : List (List Char × List Product)) :
    spaced isSpace (a ++ b) = spaced isSpace a + spaced isSpace b := List.countP_append

/-- If the counters can hold the numbers, no counter overflows. -/
theorem fold_total {isSpace : Char → Bool} : ∀ (l done : List (List Char × List Product)) {st : Nat × AMap Nat Nat},
    Counted isSpace done st → (∀ m, amount (done ++ l) m < 2 ^ 32) → spaced isSpace (done ++ l) < 2 ^ 31 →
    ∃ st', l.foldlM (popularityStep isSpace) st = .ok st'
  | [], _, st, _, _, _ => ⟨st, rfl⟩
  | e :: l, done, st, c, ha, hs => by
    have hd : done ++ e :: l = (done ++ [e]) ++ l := by rw [List.append_assoc]; rfl
    rw [hd] at hs
    have h1 : ∃ ones, countSingle isSpace st.1 e = .ok ones := by
      unfold countSingle
      split
      · rename_i hc
        refine ⟨_, if_pos ?_⟩
        rw [spaced_append, spaced_snoc, if_pos hc] at hs
        rw [c.ones]
        omega
      · exact ⟨_, rfl⟩
    have h2 : ∃ table, countEntry st.2 e.2.length = .ok table := by
      unfold countEntry
      split
      · rename_i v hv
        have hg := c.get e.2.length
        rw [hv] at hg
        have := ha e.2.length
        rw [hd, amount_append, amount_snoc, if_pos rfl] at this
        split at hg <;> cases hg
        rw [countUp, if_pos (by omega)]
        exact ⟨_, rfl⟩
      · exact ⟨_, rfl⟩
    obtain ⟨ones, h1⟩ := h1
    obtain ⟨table, h2⟩ := h2
    have h3 : popularityStep isSpace st e = .ok (ones, table) := by
      unfold popularityStep
      rw [h1, h2]
      rfl
    rw [List.foldlM_cons, h3]
    exact fold_total l (done ++ [e]) (c.step h3) (fun m => by rw [← hd]; exact ha m) hs

/-- If the counters do not overflow they can hold the numbers. -/
theorem fold_held {isSpace : Char → Bool} : ∀ (l done : List (List Char × List Product)) {st st' : Nat × AMap Nat Nat},
    Counted isSpace done st → (∀ m, amount done m < 2 ^ 32) → spaced isSpace done < 2 ^ 31 → l.foldlM (popularityStep isSpace) st = .ok st' →
    (∀ m, amount (done ++ l) m < 2 ^ 32) ∧ spaced isSpace (done ++ l) < 2 ^ 31
  | [], done, _, _, _, ha, hs, _ => by rw [List.append_nil]; exact ⟨ha, hs⟩
  | e :: l, done, st, st', c, ha, hs, h => by
    rw [List.foldlM_cons] at h
    obtain ⟨st₁, h1, h⟩ := bind_ok h
    have hd : done ++ e :: l = (done ++ [e]) ++ l := by rw [List.append_assoc]; rfl
    have up : ∀ {bits v r : Nat}, countUp bits v = .ok r → v + 1 < 2 ^ bits := fun h => by
      unfold countUp at h
      split at h
      · assumption
      · cases h
    rw [hd]
    refine fold_held l (done ++ [e]) (c.step h1) ?_ ?_ h
    all_goals
      unfold popularityStep at h1
      obtain ⟨ones, h2, h1⟩ := bind_ok h1
      obtain ⟨table, h3, h1⟩ := bind_ok h1
    · intro m
      rw [amount_snoc]
      split
      · rename_i hm
        subst hm
        have hg := c.get e.2.length
        unfold countEntry at h3
        split at h3
        · rename_i v hv
          obtain ⟨v', h4, _⟩ := bind_ok h3
          rw [hv] at hg
          have := up h4
          split at hg <;> cases hg
          exact this
        · rename_i hv
          rw [hv] at hg
          split at hg
          · rename_i h0; rw [h0]; decide
          · cases hg
      · exact ha m
    · rw [spaced_snoc]
      unfold countSingle at h2
      split
      · rename_i hc
        rw [if_pos hc, c.ones] at h2
        exact up h2
      · exact hs

/-- A list in strictly ascending order is determined by its members. -/
theorem ascending_unique {l l' : List (Nat × Nat)} (h : l.Pairwise fun a b => a.1 < b.1) (h' : l'.Pairwise fun a b => a.1 < b.1)
    (hm : ∀ x, x ∈ l ↔ x ∈ l') : l = l' := by
  have hn : l.Nodup := h.imp fun hlt e => by rw [e] at hlt; omega
  have hn' : l'.Nodup := h'.imp fun hlt e => by rw [e] at hlt; omega
  exact ((List.perm_ext_iff_of_nodup hn hn').2 hm).eq_of_pairwise (fun a b _ _ h1 h2 => by omega) h h'

/-- What the test says of an index, whatever the hash orders. -/
theorem C105_index {o : HashOrd} {isSpace : Char → Bool} {ix : GramIndex Char} {ones singles : Nat} {table : List (Nat × Nat)}
    (h : popularity o isSpace ix = .ok ((ones, singles), table)) :
    ones = spaced isSpace ix.data ∧ singles = amount ix.data 1 ∧ (table.Pairwise fun a b => a.1 < b.1) ∧
      ∀ m c, (m, c) ∈ table ↔ c = amount ix.data m ∧ c ≠ 0 := by
  unfold popularity at h
  obtain ⟨st, hst, h⟩ := bind_ok h
  have c := counted_fold _ [] (counted_nil isSpace) hst
  rw [List.nil_append] at c
  have hp := o.perm "data" ix.data
  have ha : ∀ m, amount (o.order "data" ix.data) m = amount ix.data m := fun m => hp.countP_eq _
  have hs : spaced isSpace (o.order "data" ix.data) = spaced isSpace ix.data := hp.countP_eq _
  cases h
  refine ⟨by rw [c.ones, hs], ?_, ?_, ?_⟩
  · rw [c.get, ha]
    split
    · rename_i h0; rw [h0]; rfl
    · rfl
  · have hsort := stableSort_sorted (le := fun a b : Nat × Nat => decide (a.1 ≤ b.1))
      ⟨fun a b => by simp only [decide_eq_true_eq]; omega, fun a b c => by simp only [decide_eq_true_eq]; omega⟩ (o.order "products for gram" st.2)
    have hnd : ((stableSort (fun a b : Nat × Nat => decide (a.1 ≤ b.1)) (o.order "products for gram" st.2)).map (·.1)).Nodup :=
      ((((stableSort_perm _ _).trans (o.perm _ _)).map fun e : Nat × Nat => e.1).nodup_iff).2 c.wf
    refine List.Pairwise.imp₂ (fun a b h1 h2 => ?_) (List.pairwise_map.1 hnd) hsort
    have := of_decide_eq_true h2
    omega
  · intro m k
    rw [mem_stableSort, (o.perm _ _).mem_iff, AMap.mem_iff_get c.wf, c.get, ha]
    split
    · rename_i h0
      rw [h0]
      constructor
      · intro e; cases e
      · rintro ⟨rfl, h⟩; exact absurd rfl h
    · rename_i h0
      constructor
      · intro e; cases e; exact ⟨rfl, h0⟩
      · rintro ⟨rfl, _⟩; rfl

/-- The test panics exactly if a line of the table does not fit into a `u32`, or the number of lone n-grams with a space into an `i32`. -/
theorem C105_exact (o : HashOrd) (isSpace : Char → Bool) (ix : GramIndex Char) :
    (∃ r, popularity o isSpace ix = .ok r) ↔ (∀ m, amount ix.data m < 2 ^ 32) ∧ spaced isSpace ix.data < 2 ^ 31 := by
  have hp := o.perm "data" ix.data
  have ha : ∀ m, amount (o.order "data" ix.data) m = amount ix.data m := fun m => hp.countP_eq _
  have hs : spaced isSpace (o.order "data" ix.data) = spaced isSpace ix.data := hp.countP_eq _
  constructor
  · rintro ⟨r, h⟩
    unfold popularity at h
    obtain ⟨st, hst, h⟩ := bind_ok h
    obtain ⟨h1, h2⟩ := fold_held _ [] (counted_nil isSpace) (fun m => by change 0 < 2 ^ 32; decide) (by change 0 < 2 ^ 31; decide) hst
    rw [List.nil_append] at h1 h2
    exact ⟨fun m => by rw [← ha]; exact h1 m, by rw [← hs]; exact h2⟩
  · rintro ⟨h1, h2⟩
    obtain ⟨st, hst⟩ := fold_total (o.order "data" ix.data) [] (counted_nil isSpace) (fun m => by rw [List.nil_append, ha]; exact h1 m)
      (by rw [List.nil_append, hs]; exact h2)
    unfold popularity
    rw [hst]
    exact ⟨_, rfl⟩

/-- How often an n-gram occurs in the catalogue, as a window of a padded text. -/
def windowsOf (lower : Char → List Char) (n : Nat) (raws : List RawProduct) (k : List Char) : Nat :=
  (raws.map fun raw => (paddedWindows n (textOf lower raw)).count k).sum

theorem expected_length {lower : Char → List Char} {n : Nat} {k : List Char} : ∀ {products : List Product} {raws : List RawProduct},
    products.length = raws.length → (expectedPostings lower n products raws k).length = windowsOf lower n raws k
  | [], [], _ => rfl
  | p :: ps, raw :: raws, h => by
    have := expected_length (lower := lower) (n := n) (k := k) (Nat.succ.inj h)
    unfold expectedPostings windowsOf at *
    rw [List.zip_cons_cons, List.flatMap_cons, List.length_append, List.length_replicate, List.map_cons, List.sum_cons, this]
  | [], _ :: _, h => by cases h
  | _ :: _, [], h => by cases h

/-- The entries of the index counted by the n-grams of the catalogue. -/
theorem count_data {t : Target} {o : HashOrd} {lower : Char → List Char} {parse : Str → Option F32} {n : Nat} (hn : 1 ≤ n)
    {raws : List RawProduct} {ix : GramIndex Char} {cl : Classic} (hb : buildAll t o lower parse n raws = .ok (ix, cl))
    (grams : List (List Char)) (hg : grams.Nodup) (hall : ∀ k, k ∈ grams ↔ ∃ raw ∈ raws, k ∈ paddedWindows n (textOf lower raw))
    (q : List Char → Bool) (m : Nat) :
    (ix.data.countP fun e => e.2.length == m && q e.1) =
      if m < maximumProductAmount t raws.length then grams.countP fun k => windowsOf lower n raws k == m && q k else 0 := by
  have hwf : AMap.Wf ix.data := by rw [(builtAll_of_ok hb).index]; exact data_wf t o hn _ _
  have hlen : ix.container.products.length = raws.length := by
    obtain ⟨_, b⟩ := (builtAll_of_ok hb).built
    exact b.length
  have hpos : ∀ k, k ∈ grams ↔ windowsOf lower n raws k ≠ 0 := by
    intro k
    rw [hall]
    unfold windowsOf
    constructor
    · rintro ⟨raw, hr, hk⟩ h0
      have := List.sum_eq_zero_iff_forall_eq_nat.1 h0 _ (List.mem_map.2 ⟨raw, hr, rfl⟩)
      exact absurd hk (List.count_eq_zero.1 this)
    · intro h0
      refine Classical.byContradiction fun hno => h0 (List.sum_eq_zero_iff_forall_eq_nat.2 fun x hx => ?_)
      obtain ⟨raw, hr, rfl⟩ := List.mem_map.1 hx
      exact List.count_eq_zero.2 fun hk => hno ⟨raw, hr, hk⟩
  have hmem : ∀ k l, (k, l) ∈ ix.data ↔ l = expectedPostings lower n ix.container.products raws k ∧ windowsOf lower n raws k ≠ 0 ∧
      windowsOf lower n raws k < maximumProductAmount t raws.length := by
    intro k l
    have hl := expected_length (lower := lower) (n := n) (k := k) hlen
    rw [AMap.mem_iff_get hwf, C22_postings hn hb]
    dsimp only
    rw [← hl]
    have hne := List.length_pos_iff (l := expectedPostings lower n ix.container.products raws k)
    split
    · rename_i h
      rw [Option.some.injEq]
      have := hne.2 h.1
      exact ⟨fun e => ⟨e.symm, by omega, h.2⟩, fun e => e.1.symm⟩
    · rename_i h
      constructor
      · intro e; cases e
      · rintro ⟨_, h1, h2⟩; exact absurd ⟨hne.1 (by omega), h2⟩ h
  rw [List.countP_eq_length_filter, ← List.length_map (f := fun e : List Char × List Product => e.1)]
  have hnd : ((ix.data.filter fun e => e.2.length == m && q e.1).map fun e : List Char × List Product => e.1).Nodup :=
    List.Nodup.sublist (List.filter_sublist.map _) hwf
  split
  · rename_i hm
    rw [List.countP_eq_length_filter]
    refine List.Perm.length_eq ((List.perm_ext_iff_of_nodup hnd (hg.filter _)).2 fun k => ?_)
    simp only [List.mem_map, List.mem_filter, Bool.and_eq_true, beq_iff_eq]
    have hl := expected_length (lower := lower) (n := n) (k := k) hlen
    constructor
    · rintro ⟨⟨k', l⟩, ⟨hd, h1, h2⟩, rfl⟩
      obtain ⟨rfl, h3, h4⟩ := (hmem _ _).1 hd
      exact ⟨(hpos _).2 h3, by rw [← hl]; exact h1, h2⟩
    · rintro ⟨h1, h2, h3⟩
      exact ⟨(k, _), ⟨(hmem k _).2 ⟨rfl, (hpos k).1 h1, by omega⟩, by dsimp only; omega, h3⟩, rfl⟩
  · rename_i hm
    rw [List.length_map, List.length_eq_zero_iff, List.filter_eq_nil_iff]
    rintro ⟨k, l⟩ hd h
    obtain ⟨rfl, h3, h4⟩ := (hmem _ _).1 hd
    have hl := expected_length (lower := lower) (n := n) (k := k) hlen
    simp only [Bool.and_eq_true, beq_iff_eq] at h
    omega

/-- The lines of the table: each number of occurrences below the cut-off with the number of different n-grams that occur so often. -/
theorem C105_table {t : Target} {o o' : HashOrd} {lower : Char → List Char} {parse : Str → Option F32} {n : Nat} (hn : 1 ≤ n)
    {raws : List RawProduct} {ix : GramIndex Char} {cl : Classic} (hb : buildAll t o lower parse n raws = .ok (ix, cl))
    {isSpace : Char → Bool} {ones singles : Nat} {table : List (Nat × Nat)}
    (h : popularity o' isSpace ix = .ok ((ones, singles), table))
    (grams : List (List Char)) (hg : grams.Nodup) (hall : ∀ k, k ∈ grams ↔ ∃ raw ∈ raws, k ∈ paddedWindows n (textOf lower raw)) :
    (table.Pairwise fun a b => a.1 < b.1) ∧
    (∀ m c, (m, c) ∈ table ↔ m < maximumProductAmount t raws.length ∧ c ≠ 0 ∧ c = grams.countP fun k => windowsOf lower n raws k == m) ∧
    singles = (if 1 < maximumProductAmount t raws.length then grams.countP fun k => windowsOf lower n raws k == 1 else 0) ∧
    ones = (if 1 < maximumProductAmount t raws.length then
      grams.countP fun k => windowsOf lower n raws k == 1 && k.any isSpace else 0) := by
  obtain ⟨h1, h2, h3, h4⟩ := C105_index h
  have ha : ∀ m, amount ix.data m = if m < maximumProductAmount t raws.length then grams.countP fun k => windowsOf lower n raws k == m else 0 := by
    intro m
    have := count_data hn hb grams hg hall (fun _ => true) m
    simp only [Bool.and_true] at this
    exact this
  refine ⟨h3, fun m c => ?_, by rw [h2, ha], by rw [h1]; exact count_data hn hb grams hg hall (fun k => k.any isSpace) 1⟩
  rw [h4, ha]
  split
  · rename_i hm
    exact ⟨fun h => ⟨hm, h.2, h.1⟩, fun h => ⟨h.2.2, h.2.1⟩⟩
  · rename_i hm
    exact ⟨fun h => absurd h.1 h.2, fun h => absurd h.1 hm⟩

/-- If no text has an n-gram twice the lines tell in how many products the n-grams are. -/
theorem C105_products {lower : Char → List Char} {n : Nat} {raws : List RawProduct} {k : List Char}
    (h : ∀ raw ∈ raws, (paddedWindows n (textOf lower raw)).count k ≤ 1) :
    windowsOf lower n raws k = raws.countP fun raw => (paddedWindows n (textOf lower raw)).contains k := by
  unfold windowsOf
  induction raws with
  | nil => rfl
  | cons raw raws ih =>
    rw [List.map_cons, List.sum_cons, ih fun r hr => h r (List.mem_cons_of_mem _ hr), List.countP_cons]
    have := h raw List.mem_cons_self
    split
    · rename_i hc
      have := List.count_pos_iff.2 (List.contains_iff_mem.1 hc)
      omega
    · rename_i hc
      have : (paddedWindows n (textOf lower raw)).count k = 0 := List.count_eq_zero.2 fun hm => hc (List.contains_iff_mem.2 hm)
      omega

/-- The test runs through for catalogues of less than 2^31 characters. -/
theorem C105_total {t : Target} {o : HashOrd} (o' : HashOrd) {lower : Char → List Char} {parse : Str → Option F32} {n : Nat} (hn : 1 ≤ n)
    {raws : List RawProduct} {ix : GramIndex Char} {cl : Classic} (hb : buildAll t o lower parse n raws = .ok (ix, cl))
    (hl : totalChars lower raws < 2 ^ 31) (isSpace : Char → Bool) : ∃ r, popularity o' isSpace ix = .ok r := by
  obtain ⟨h1, h2⟩ := C80_postings hn hb
  have hle : ∀ l : List (List Char × List Product), (∀ e ∈ l, e.2 ≠ []) → l.length ≤ (l.map fun e => e.2.length).sum := by
    intro l
    induction l with
    | nil => intro _; exact Nat.le_refl _
    | cons e l ih =>
      intro h
      have h3 := ih fun e he => h e (List.mem_cons_of_mem _ he)
      have h4 := List.length_pos_iff.2 (h e List.mem_cons_self)
      rw [List.map_cons, List.sum_cons, List.length_cons]
      omega
  have := hle ix.data h2
  refine (C105_exact o' isSpace ix).2 ⟨fun m => ?_, ?_⟩
  · have : amount ix.data m ≤ ix.data.length := List.countP_le_length
    omega
  · have : spaced isSpace ix.data ≤ ix.data.length := List.countP_le_length
    omega

/-- The numbers do not depend on any hash order. -/
theorem C105_order {t : Target} {o₁ o₂ o₃ o₄ : HashOrd} {lower : Char → List Char} {parse : Str → Option F32} {n : Nat} (hn : 1 ≤ n)
    {raws : List RawProduct} {ix ix' : GramIndex Char} {cl cl' : Classic} (hb : buildAll t o₁ lower parse n raws = .ok (ix, cl))
    (hb' : buildAll t o₂ lower parse n raws = .ok (ix', cl')) {isSpace : Char → Bool} {r r' : (Nat × Nat) × List (Nat × Nat)}
    (h : popularity o₃ isSpace ix = .ok r) (h' : popularity o₄ isSpace ix' = .ok r') : r = r' := by
  obtain ⟨⟨ones, singles⟩, table⟩ := r
  obtain ⟨⟨ones', singles'⟩, table'⟩ := r'
  have hg := nodup_setCollect (raws.flatMap fun raw => paddedWindows n (textOf lower raw))
  have hall : ∀ k, k ∈ setCollect (raws.flatMap fun raw => paddedWindows n (textOf lower raw)) ↔
      ∃ raw ∈ raws, k ∈ paddedWindows n (textOf lower raw) := fun k => by rw [mem_setCollect, List.mem_flatMap]
  obtain ⟨a1, a2, a3, a4⟩ := C105_table hn hb h _ hg hall
  obtain ⟨b1, b2, b3, b4⟩ := C105_table hn hb' h' _ hg hall
  rw [a3, a4, b3, b4, ascending_unique a1 b1 fun ⟨m, c⟩ => by rw [a2, b2]]

/-- Four products; the text of the first has one 2-gram twice. -/
def stutter : List RawProduct := [mkRaw [] "aaa".toList "1".toList, mkRaw [] "b".toList "2".toList, mkRaw [] "c".toList "3".toList,
  mkRaw [] "d".toList "4".toList]

theorem stutter_grams (k : List Char) : k ∈ [[dflt, 'a'], ['a', 'a'], [dflt, 'b'], [dflt, 'c'], [dflt, 'd']] ↔
    ∃ raw ∈ stutter, k ∈ paddedWindows 2 (textOf (fun c => [c]) raw) := by
  have e1 : paddedWindows 2 (textOf (fun c => [c]) (mkRaw [] "aaa".toList "1".toList)) = [[dflt, 'a'], ['a', 'a'], ['a', 'a']] := by decide
  have e2 : paddedWindows 2 (textOf (fun c => [c]) (mkRaw [] "b".toList "2".toList)) = [[dflt, 'b']] := by decide
  have e3 : paddedWindows 2 (textOf (fun c => [c]) (mkRaw [] "c".toList "3".toList)) = [[dflt, 'c']] := by decide
  have e4 : paddedWindows 2 (textOf (fun c => [c]) (mkRaw [] "d".toList "4".toList)) = [[dflt, 'd']] := by decide
  simp only [stutter, List.mem_cons, List.not_mem_nil, or_false, exists_eq_or_imp, exists_eq_left, e1, e2, e3, e4]
  constructor
  · rintro (h | h | h | h | h) <;> simp [h]
  · rintro ((h | h | h) | h | h | h) <;> simp [h]

/-- The table is headed "product_amount", but counts occurrences: a catalogue whose table says that an n-gram is in two products although none
is. -/
theorem C105_false : ∃ (raws : List RawProduct) (ix : GramIndex Char) (cl : Classic) (r : (Nat × Nat) × List (Nat × Nat)),
    buildAll .debug64 .ident (fun c => [c]) parseOne 2 raws = .ok (ix, cl) ∧ popularity .ident (· == ' ') ix = .ok r ∧ (2, 1) ∈ r.2 ∧
    ∀ k, (raws.countP fun raw => (paddedWindows 2 (textOf (fun c => [c]) raw)).contains k) ≤ 1 := by
  obtain ⟨ix, cl, h⟩ := buildAll_ok .debug64 .ident (fun c => [c]) parseOne 2 stutter [F32.one, F32.one, F32.one, F32.one] rfl
  obtain ⟨⟨⟨ones, singles⟩, table⟩, h'⟩ := C105_total .ident (by decide) h (by decide) (· == ' ')
  obtain ⟨_, h2, _⟩ := C105_table (by decide) h h' _ (by decide) stutter_grams
  refine ⟨stutter, ix, cl, _, h, h', (h2 2 1).2 ⟨?_, by decide, by decide⟩, fun k => ?_⟩
  · rw [C22_cutoff .debug64 (.inr rfl) _ (by decide)]
    decide
  · rcases Classical.em (k ∈ [[dflt, 'a'], ['a', 'a'], [dflt, 'b'], [dflt, 'c'], [dflt, 'd']]) with hk | hk
    · revert k
      decide
    · rw [stutter_grams] at hk
      rw [List.countP_eq_zero.2 fun raw hr hc => hk ⟨raw, hr, List.contains_iff_mem.1 hc⟩]
      decide

end Idx
