import Verif.Lemmas.Tree
import Verif.Lemmas.F32
import Verif.Lemmas.Order
/-! The finished n-gram index. -/
set_option linter.unusedSectionVars false
namespace Idx
variable {G : Type} [DecidableEq G] [RDefault G]

theorem childOf_item {f : List (MNode G)} {g : G} {m : MNode G} (h : childOf f g = some m) : m.item = g ∧ m ∈ f := by
  have h1 := List.find?_some h
  exact ⟨by simpa using h1, List.mem_of_find?_eq_some h⟩

theorem childOf_mem {f : List (MNode G)} (hn : (f.map (·.item)).Nodup) {m : MNode G} (h : m ∈ f) :
    childOf f m.item = some m := by
  induction f with
  | nil => simp at h
  | cons a f ih =>
    rw [childOf_cons]
    simp only [List.map_cons, List.nodup_cons] at hn
    rcases List.mem_cons.1 h with rfl | h
    · simp
    · have : ¬ a.item = m.item := fun e => hn.1 (by rw [e]; exact List.mem_map_of_mem h)
      rw [if_neg this]; exact ih hn.2 h

/-- Walking the finished tree is walking the mutable one. -/
theorem walk_forest (o : HashOrd) (path : List G) : ∀ (f : List (MNode G)) (pre : List G) (parent : Nat)
    (lookup : AMap G (GramNode G)), ForestOk f →
    (∀ g, AMap.get lookup g = (childOf f g).map (immutalize o pre parent)) → ∀ g,
    ((AMap.get lookup g).bind fun n => n.walk path) = (nodeAt f g path).map (immutalize o
      (pre ++ (g :: path).dropLast) (if path = [] then parent else occAt f (g :: path).dropLast)) := by
  induction path with
  | nil =>
    intro f pre parent lookup hf hl g
    rw [hl]
    simp only [nodeAt, List.dropLast_singleton, List.append_nil, if_true]
    cases childOf f g <;> rfl
  | cons h path ih =>
    intro f pre parent lookup hf hl g
    rw [hl]
    simp only [nodeAt]
    cases hc : childOf f g with
    | none => rfl
    | some m =>
      obtain ⟨hi, hm⟩ := childOf_item hc
      have hok := hf.child m hm
      have := ih m.items (pre ++ [m.item]) m.occ (immutalize o pre parent m).items hok
        (immutalize_items_get o pre parent m hok.nodup) h
      simp only [Option.map_some, Option.bind_some, GramNode.walk]
      rw [this, hi]
      congr 2
      · simp
      · cases path with
        | nil => simp [occAt, nodeAt, hc]
        | cons h' path => simp [occAt_cons_cons, hc]

/-- The mutable forest after all feeds. -/
def forestOf (n : Nat) (feeds : List (List G × Product)) : List (MNode G) :=
  (feeds.foldl (buildFeed n) ([], [])).1

/-- Number of grams fed. -/
def totalGrams (feeds : List (List G × Product)) : Nat := (feeds.map (·.1.length)).sum

theorem forest_total (n : Nat) (feeds : List (List G × Product)) :
    ((forestOf n feeds).map (·.occ)).sum = totalGrams feeds := by
  simp only [forestOf, sum_occ_feeds]; simp [totalGrams]

theorem forest_ok {n : Nat} (hn : 1 ≤ n) (feeds : List (List G × Product)) : ForestOk (forestOf n feeds) :=
  (feedsInv hn feeds).ok

theorem forest_occ {n : Nat} (hn : 1 ≤ n) (feeds : List (List G × Product)) (q : List G) :
    occAt (forestOf n feeds) q =
      if 1 ≤ q.length ∧ q.length ≤ n then occurrencesIn q (feeds.map (·.1)) else 0 :=
  (feedsInv hn feeds).occ q

theorem roots_eq (t : Target) (o : HashOrd) (n : Nat) (feeds : List (List G × Product)) (c : Container) :
    (indexFrom t o n feeds c).roots = o.order "roots" (((forestOf n feeds).map
      (immutalize o [] (totalGrams feeds))).map fun r => (r.item, r)) := by
  simp only [indexFrom]
  rw [show (List.foldl (buildFeed n) ([], []) feeds).1 = forestOf n feeds from rfl, forest_total, List.map_map]
  congr 1
  apply List.map_congr_left
  intro m _
  simp [immutalize_item]

theorem roots_table_wf (o : HashOrd) {n : Nat} (hn : 1 ≤ n) (feeds : List (List G × Product)) (k : Nat) :
    AMap.Wf (((forestOf n feeds).map (immutalize o [] k)).map fun r => (r.item, r)) := by
  rw [AMap.Wf, List.map_map, List.map_map]
  have : ((fun x : G × GramNode G => x.1) ∘ (fun r : GramNode G => (r.item, r))) ∘ immutalize o [] k =
      fun m => m.item := by funext m; simp [immutalize_item]
  rw [this]
  exact (forest_ok hn feeds).nodup

theorem roots_wf (t : Target) (o : HashOrd) {n : Nat} (hn : 1 ≤ n) (feeds : List (List G × Product)) (c : Container) :
    AMap.Wf (indexFrom t o n feeds c).roots := by
  rw [roots_eq]
  exact (roots_table_wf o hn feeds _).perm (o.perm _ _)

theorem roots_get (t : Target) (o : HashOrd) {n : Nat} (hn : 1 ≤ n) (feeds : List (List G × Product)) (c : Container)
    (g : G) : AMap.get (indexFrom t o n feeds c).roots g =
      (childOf (forestOf n feeds) g).map (immutalize o [] (totalGrams feeds)) := by
  rw [roots_eq, AMap.get_perm (roots_table_wf o hn feeds _) (o.perm _ _)]
  exact get_items_of_perm (List.Perm.refl _) (immutalize_item o _ _) (forest_ok hn feeds).nodup g

theorem indexFrom_nodeAt (t : Target) (o : HashOrd) {n : Nat} (hn : 1 ≤ n) (feeds : List (List G × Product))
    (c : Container) (g : G) (path : List G) :
    (indexFrom t o n feeds c).nodeAt (g :: path) = (nodeAt (forestOf n feeds) g path).map (immutalize o
      (g :: path).dropLast (if path = [] then totalGrams feeds else occAt (forestOf n feeds) (g :: path).dropLast)) := by
  have := walk_forest o path (forestOf n feeds) [] (totalGrams feeds) (indexFrom t o n feeds c).roots
    (forest_ok hn feeds) (roots_get t o hn feeds c) g
  rw [List.nil_append] at this
  exact this

theorem nodeAt_item {f : List (MNode G)} {g : G} {path : List G} {m : MNode G} (h : nodeAt f g path = some m) :
    some m.item = (g :: path).getLast? := by
  induction path generalizing f g with
  | nil => simp [(childOf_item h).1]
  | cons x path ih =>
    simp only [nodeAt] at h
    cases hc : childOf f g with
    | none => rw [hc] at h; simp at h
    | some m' =>
      rw [hc] at h
      rw [ih h, List.getLast?_cons_cons]

/-! ## Occurrences -/

theorem occurrences_pos_iff (path text : List G) (h : path ≠ []) : 1 ≤ occurrences path text ↔ path <:+: text := by
  induction text with
  | nil =>
    rw [occurrences_nil]
    constructor
    · intro h; omega
    · intro hi; exact absurd (List.infix_nil.1 hi) h
  | cons d text ih =>
    rw [occurrences_cons, List.infix_cons_iff, ← ih, ← List.isPrefixOf_iff_prefix]
    by_cases hp : path.isPrefixOf (d :: text) = true
    · simp [hp]
    · simp [hp]

theorem sum_pos_iff (l : List Nat) : 1 ≤ l.sum ↔ ∃ x ∈ l, 1 ≤ x := by
  induction l with
  | nil => simp
  | cons a l ih =>
    have e : (∃ x ∈ a :: l, 1 ≤ x) ↔ 1 ≤ a ∨ ∃ x ∈ l, 1 ≤ x := by simp
    rw [e, ← ih, List.sum_cons]; omega

theorem occurrencesIn_pos_iff (path : List G) (texts : List (List G)) (h : path ≠ []) :
    1 ≤ occurrencesIn path texts ↔ ∃ text ∈ texts, path <:+: text := by
  rw [occurrencesIn, sum_pos_iff]
  constructor
  · rintro ⟨x, hx, h1⟩
    obtain ⟨text, ht, rfl⟩ := List.mem_map.1 hx
    exact ⟨text, ht, (occurrences_pos_iff path text h).1 h1⟩
  · rintro ⟨text, ht, hi⟩
    exact ⟨_, List.mem_map_of_mem ht, (occurrences_pos_iff path text h).2 hi⟩

theorem occurrences_append_le (path ext text : List G) : occurrences (path ++ ext) text ≤ occurrences path text := by
  apply List.countP_mono_left
  intro i _ hp
  rw [List.isPrefixOf_iff_prefix] at hp ⊢
  exact (List.prefix_append path ext).trans hp

theorem occurrencesIn_append_le (path ext : List G) (texts : List (List G)) :
    occurrencesIn (path ++ ext) texts ≤ occurrencesIn path texts := by
  induction texts with
  | nil => simp [occurrencesIn]
  | cons text texts ih =>
    simp only [occurrencesIn, List.map_cons, List.sum_cons] at *
    have := occurrences_append_le path ext text
    omega

theorem occurrences_le_length (path text : List G) : occurrences path text ≤ text.length := by
  have := List.countP_le_length (p := fun i => path.isPrefixOf (text.drop i)) (l := List.range text.length)
  simpa [occurrences] using this

theorem occurrencesIn_le_total (path : List G) (feeds : List (List G × Product)) :
    occurrencesIn path (feeds.map (·.1)) ≤ totalGrams feeds := by
  induction feeds with
  | nil => simp [occurrencesIn, totalGrams]
  | cons feed feeds ih =>
    simp only [occurrencesIn, totalGrams, List.map_cons, List.sum_cons] at *
    have := occurrences_le_length path feed.1
    omega

/-! ## Posting lists -/

theorem data_get (t : Target) (o : HashOrd) {n : Nat} (hn : 1 ≤ n) (feeds : List (List G × Product)) (c : Container)
    (k : List G) : AMap.get (indexFrom t o n feeds c).data k =
      let l := postings n feeds k
      if l ≠ [] ∧ l.length < maximumProductAmount t c.products.length then
        some (stableSort (fun a b : Product => decide (a.sid ≤ b.sid)) l) else none := by
  have hf := feedsInv hn feeds
  simp only [indexFrom]
  rw [AMap.get_map (f := fun _ l => stableSort (fun a b : Product => decide (a.sid ≤ b.sid)) l),
    AMap.get_filter hf.wf, hf.data]
  simp only [asPosting]
  by_cases h1 : postings n feeds k = []
  · simp [h1]
  · by_cases h2 : (postings n feeds k).length < maximumProductAmount t c.products.length
    · simp [h1, h2, Option.filter]
    · simp [h1, h2, Option.filter]

theorem data_wf (t : Target) (o : HashOrd) {n : Nat} (hn : 1 ≤ n) (feeds : List (List G × Product)) (c : Container) :
    AMap.Wf (indexFrom t o n feeds c).data := by
  have hf := feedsInv hn feeds
  simp only [indexFrom]
  exact (hf.wf.filter _).map (fun _ l => stableSort (fun a b : Product => decide (a.sid ≤ b.sid)) l)

theorem mem_postings {n : Nat} {feeds : List (List G × Product)} {k : List G} {p : Product} :
    p ∈ postings n feeds k ↔ ∃ feed ∈ feeds, feed.2 = p ∧ k ∈ paddedWindows n feed.1 := by
  simp only [postings, List.mem_flatMap, postingOf, List.mem_replicate]
  constructor
  · rintro ⟨feed, h, h1, rfl⟩
    exact ⟨feed, h, rfl, List.count_pos_iff.1 (Nat.pos_of_ne_zero h1)⟩
  · rintro ⟨feed, h, rfl, hk⟩
    exact ⟨feed, h, Nat.ne_of_gt (List.count_pos_iff.2 hk), rfl⟩


/-! ## Every node has a path -/

/-- `node` is reached from a root through the listed grams: roots by their key, then child by child. -/
inductive GramIndex.Has (ix : GramIndex G) : List G → GramNode G → Prop where
  | root {g : G} {r : GramNode G} : (g, r) ∈ ix.roots → ix.Has [g] r
  | child {path : List G} {m c : GramNode G} : ix.Has path m → c ∈ m.byOcc → ix.Has (path ++ [c.item]) c

theorem GramNode.walk_snoc (path : List G) (g : G) : ∀ n : GramNode G,
    n.walk (path ++ [g]) = (n.walk path).bind fun m => AMap.get m.items g := by
  induction path with
  | nil => intro n; simp [GramNode.walk]
  | cons h path ih =>
    intro n
    simp only [GramNode.walk, List.cons_append]
    cases AMap.get n.items h with
    | none => rfl
    | some c => simp [ih]

theorem GramIndex.nodeAt_snoc (ix : GramIndex G) (path : List G) (h : path ≠ []) (g : G) :
    ix.nodeAt (path ++ [g]) = (ix.nodeAt path).bind fun m => AMap.get m.items g := by
  cases path with
  | nil => exact absurd rfl h
  | cons x path =>
    simp only [List.cons_append, GramIndex.nodeAt]
    cases AMap.get ix.roots x with
    | none => rfl
    | some r => simp [GramNode.walk_snoc]

/-- A finished tree whose tables list every node under its own item. -/
structure GramIndex.Keyed (ix : GramIndex G) : Prop where
  roots : AMap.Wf ix.roots
  rootItem : ∀ g r, (g, r) ∈ ix.roots → r.item = g
  siblings : ∀ path m, ix.nodeAt path = some m → (m.byOcc.map (·.item)).Nodup

theorem items_wf {m : GramNode G} (h : (m.byOcc.map (·.item)).Nodup) :
    m.items = m.byOcc.map fun c => (c.item, c) := by
  rw [GramNode.items, AMap.collect_of_wf]
  simp only [AMap.Wf, List.map_map]
  exact h

theorem items_get_iff {m c : GramNode G} {g : G} (h : (m.byOcc.map (·.item)).Nodup) :
    AMap.get m.items g = some c ↔ c ∈ m.byOcc ∧ c.item = g := by
  rw [items_wf h, ← AMap.mem_iff_get]
  · simp only [List.mem_map, Prod.mk.injEq]
    constructor
    · rintro ⟨a, ha, rfl, rfl⟩; exact ⟨ha, rfl⟩
    · rintro ⟨hc, rfl⟩; exact ⟨c, hc, rfl, rfl⟩
  · simp only [AMap.Wf, List.map_map]; exact h

theorem GramIndex.Keyed.has_iff {ix : GramIndex G} (hk : ix.Keyed) (path : List G) (node : GramNode G) :
    ix.Has path node ↔ ix.nodeAt path = some node := by
  constructor
  · intro h
    induction h with
    | root h => simp [GramIndex.nodeAt, AMap.get_of_mem hk.roots h, GramNode.walk]
    | @child path m c hm hc ih =>
      have hne : path ≠ [] := by rintro rfl; simp [GramIndex.nodeAt] at ih
      rw [GramIndex.nodeAt_snoc _ _ hne, ih]
      exact (items_get_iff (hk.siblings _ _ ih)).2 ⟨hc, rfl⟩
  · intro h
    have aux : ∀ (rev : List G) (node : GramNode G), ix.nodeAt rev.reverse = some node → ix.Has rev.reverse node := by
      intro rev
      induction rev with
      | nil => intro node h; simp [GramIndex.nodeAt] at h
      | cons g rev ih =>
        intro node h
        rw [List.reverse_cons] at h ⊢
        by_cases hr : rev = []
        · subst hr
          simp only [List.reverse_nil, List.nil_append, GramIndex.nodeAt, GramNode.walk] at h ⊢
          cases hg : AMap.get ix.roots g with
          | none => rw [hg] at h; simp at h
          | some r =>
            rw [hg] at h
            simp only [Option.bind_some, Option.some.injEq] at h
            subst h
            exact .root (AMap.mem_of_get hg)
        · have hne : rev.reverse ≠ [] := by simpa using hr
          rw [GramIndex.nodeAt_snoc _ _ hne] at h
          cases hm : ix.nodeAt rev.reverse with
          | none => rw [hm] at h; simp at h
          | some m =>
            rw [hm] at h
            obtain ⟨hc, rfl⟩ := (items_get_iff (hk.siblings _ _ hm)).1 h
            exact .child (ih m hm) hc
    have := aux path.reverse node (by simpa using h)
    simpa using this

theorem nodeAt_ok {f : List (MNode G)} (hf : ForestOk f) {g : G} {path : List G} {m : MNode G}
    (h : nodeAt f g path = some m) : ForestOk m.items := by
  induction path generalizing f g with
  | nil => exact hf.child m (childOf_item h).2
  | cons x path ih =>
    simp only [nodeAt] at h
    cases hc : childOf f g with
    | none => rw [hc] at h; simp at h
    | some m' => rw [hc] at h; exact ih (hf.child m' (childOf_item hc).2) h

theorem immutalize_siblings (o : HashOrd) (path : List G) (k : Nat) {m : MNode G} (h : (m.items.map (·.item)).Nodup) :
    ((immutalize o path k m).byOcc.map (·.item)).Nodup := by
  refine (((immutalize_byOcc o path k m).map (·.item)).nodup_iff).2 ?_
  rw [List.map_map]
  have : ((fun x : GramNode G => x.item) ∘ immutalize o (path ++ [m.item]) m.occ) = fun m => m.item := by
    funext m; simp [immutalize_item]
  rw [this]; exact h

theorem indexFrom_keyed (t : Target) (o : HashOrd) {n : Nat} (hn : 1 ≤ n) (feeds : List (List G × Product))
    (c : Container) : (indexFrom t o n feeds c).Keyed := by
  refine ⟨roots_wf t o hn feeds c, ?_, ?_⟩
  · intro g r h
    rw [roots_eq] at h
    obtain ⟨r', _, e⟩ := List.mem_map.1 ((o.perm _ _).mem_iff.1 h)
    simp only [Prod.mk.injEq] at e
    rw [← e.1, ← e.2]
  · intro path m h
    cases path with
    | nil => simp [GramIndex.nodeAt] at h
    | cons g path =>
      rw [indexFrom_nodeAt t o hn] at h
      cases hm : nodeAt (forestOf n feeds) g path with
      | none => rw [hm] at h; simp at h
      | some m' =>
        rw [hm] at h
        simp only [Option.map_some, Option.some.injEq] at h
        rw [← h]
        exact immutalize_siblings o _ _ (nodeAt_ok (forest_ok hn feeds) hm).nodup

theorem F32.InUnit.notNan {lo : Nat} {x : F32} (h : F32.InUnit lo x) : ¬ x.IsNan := by
  obtain ⟨m, h, _⟩ := h
  intro e; unfold F32.IsNan at e; rw [e] at h; cases h

theorem sort_by_weight {l : List (GramNode G)} (h : ∀ c ∈ l, ¬ c.weight.IsNan) :
    (stableSort (fun a b => (GramNode.cmp a b).swap != .gt) l).Pairwise fun a b => F32.lt a.weight b.weight = false := by
  have key : ∀ a b : GramNode G, ¬ a.weight.IsNan → ¬ b.weight.IsNan →
      ((((GramNode.cmp a b).swap != .gt) = true) ↔ F32.lt a.weight b.weight = false) := by
    intro a b ha hb
    rw [bne_iff_ne]; exact F32.cmpOrEq_swap_ne_gt ha hb
  have hs := stableSort_sorted_on (le := fun a b : GramNode G => (GramNode.cmp a b).swap != .gt)
    (fun c => ¬ c.weight.IsNan)
    (by
      intro a b ha hb
      rw [key a b ha hb, key b a hb ha]
      cases h1 : F32.lt a.weight b.weight with
      | false => exact .inl rfl
      | true => exact .inr (F32.lt_asymm h1))
    (by
      intro a b c ha hb hc
      rw [key a b ha hb, key b c hb hc, key a c ha hc]
      intro h1 h2
      exact F32.le_trans hc hb ha h2 h1)
    l h
  exact hs.imp_of_mem (fun ha hb hab =>
    (key _ _ (h _ (mem_stableSort.1 ha)) (h _ (mem_stableSort.1 hb))).1 hab)

theorem immutalize_byOcc_eq (o : HashOrd) (path : List G) (k : Nat) (m : MNode G) :
    ∃ l : List (GramNode G), l.Perm (m.items.map (immutalize o (path ++ [m.item]) m.occ)) ∧
      (immutalize o path k m).byOcc = stableSort (fun a b => (GramNode.cmp a b).swap != .gt) l := by
  cases m with
  | mk i occ l =>
    rw [immutalize]
    simp only [GramNode.byOcc_mk, MNode.items_mk, MNode.item_mk, MNode.occ_mk]
    refine ⟨_, ?_, rfl⟩
    refine ((o.perm _ _).trans ?_)
    have : (l.attach.map fun x => immutalize o (path ++ [i]) occ x.val) = l.map (immutalize o (path ++ [i]) occ) := by
      have := List.attach_map_val (l := l) (f := immutalize o (path ++ [i]) occ)
      exact this
    rw [this]

theorem immutalize_sorted (o : HashOrd) (path : List G) (k : Nat) {m : MNode G}
    (h : ∀ c ∈ m.items, 1 ≤ c.occ ∧ c.occ ≤ m.occ) (hb : m.occ ≤ 2 ^ 32) :
    (immutalize o path k m).byOcc.Pairwise fun a b => F32.lt a.weight b.weight = false := by
  obtain ⟨l, hp, e⟩ := immutalize_byOcc_eq o path k m
  rw [e]
  apply sort_by_weight
  intro c hc
  obtain ⟨c', hc', rfl⟩ := List.mem_map.1 (hp.mem_iff.1 hc)
  rw [immutalize_weight]
  have := h c' hc'
  exact (F32.inUnit_div this.1 this.2 hb).notNan

theorem nodeAt_append {f : List (MNode G)} {g : G} {path : List G} {m : MNode G} (h : nodeAt f g path = some m) (x : G) :
    nodeAt f g (path ++ [x]) = childOf m.items x := by
  induction path generalizing f g with
  | nil => simp only [nodeAt] at h; simp [nodeAt, h]
  | cons y path ih =>
    simp only [nodeAt, List.cons_append] at h ⊢
    cases hc : childOf f g with
    | none => rw [hc] at h; simp at h
    | some m' => rw [hc] at h; exact ih h

end Idx
