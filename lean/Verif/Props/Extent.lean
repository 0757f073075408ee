import Verif.Lemmas.Run
import Verif.Props.Index

/-! How large a built index is: the nodes of its trees, and the entries of its posting lists. -/

namespace Idx

/-- Spec: the number of nodes of a tree. -/
def GramNode.nodes : GramNode G → Nat
  | .mk _ _ l => 1 + (l.attach.map fun ⟨c, _⟩ => GramNode.nodes c).sum

theorem GramNode.nodes_mk (i : G) (w : F32) (l : List (GramNode G)) :
    (GramNode.mk i w l).nodes = 1 + (l.map GramNode.nodes).sum := by
  rw [GramNode.nodes]
  rw [List.attach_map_val (f := GramNode.nodes)]

/-- The nodes of a tree with their paths below `pre`. -/
def GramNode.under (pre : List G) : GramNode G → List (List G × GramNode G)
  | .mk i w l => (pre ++ [i], .mk i w l) :: (l.attach.flatMap fun ⟨c, _⟩ => GramNode.under (pre ++ [i]) c)

theorem GramNode.under_mk (pre : List G) (i : G) (w : F32) (l : List (GramNode G)) :
    (GramNode.mk i w l).under pre = (pre ++ [i], .mk i w l) :: l.flatMap (GramNode.under (pre ++ [i])) := by
  rw [GramNode.under]
  congr 1
  rw [List.flatMap, List.flatMap, List.attach_map_val (f := GramNode.under (pre ++ [i]))]

theorem GramNode.under_length (m : GramNode G) : ∀ pre, (m.under pre).length = m.nodes := by
  refine GramNode.depth_induct (motive := fun m => ∀ pre, (m.under pre).length = m.nodes) ?_ m
  intro i w l ih pre
  rw [under_mk, nodes_mk, List.length_cons, List.length_flatMap]
  rw [List.map_congr_left fun c hc => ih c hc _]
  omega

theorem GramNode.under_prefix (m : GramNode G) : ∀ pre, ∀ x ∈ m.under pre, (pre ++ [m.item]) <+: x.1 := by
  refine GramNode.depth_induct (motive := fun m => ∀ pre, ∀ x ∈ m.under pre, (pre ++ [m.item]) <+: x.1) ?_ m
  intro i w l ih pre x hx
  rw [under_mk] at hx
  rcases List.mem_cons.1 hx with rfl | hx
  · exact List.prefix_refl _
  · obtain ⟨c, hc, hx⟩ := List.mem_flatMap.1 hx
    exact (List.prefix_append _ _).trans (ih c hc _ x hx)

theorem GramNode.under_child (m : GramNode G) : ∀ pre, ∀ x ∈ m.under pre, ∀ c ∈ x.2.byOcc,
    (x.1 ++ [c.item], c) ∈ m.under pre := by
  refine GramNode.depth_induct (motive := fun m => ∀ pre, ∀ x ∈ m.under pre, ∀ c ∈ x.2.byOcc,
    (x.1 ++ [c.item], c) ∈ m.under pre) ?_ m
  intro i w l ih pre x hx c hc
  rw [under_mk] at hx ⊢
  rcases List.mem_cons.1 hx with rfl | hx
  · refine List.mem_cons_of_mem _ (List.mem_flatMap.2 ⟨c, hc, ?_⟩)
    cases c
    rw [under_mk]; exact List.mem_cons_self
  · obtain ⟨d, hd, hx⟩ := List.mem_flatMap.1 hx
    exact List.mem_cons_of_mem _ (List.mem_flatMap.2 ⟨d, hd, ih d hd _ x hx c hc⟩)

theorem GramNode.under_has {ix : GramIndex G} (m : GramNode G) : ∀ pre, ix.Has (pre ++ [m.item]) m →
    ∀ x ∈ m.under pre, ix.Has x.1 x.2 := by
  refine GramNode.depth_induct (motive := fun m => ∀ pre, ix.Has (pre ++ [m.item]) m →
    ∀ x ∈ m.under pre, ix.Has x.1 x.2) ?_ m
  intro i w l ih pre h x hx
  rw [under_mk] at hx
  rcases List.mem_cons.1 hx with rfl | hx
  · exact h
  · obtain ⟨c, hc, hx⟩ := List.mem_flatMap.1 hx
    exact ih c hc _ (h.child hc) x hx

theorem GramNode.under_nodup (m : GramNode G) : ∀ pre, (∀ x ∈ m.under pre, (x.2.byOcc.map (·.item)).Nodup) →
    (m.under pre).Pairwise fun x y => x.1 ≠ y.1 := by
  refine GramNode.depth_induct (motive := fun m => ∀ pre, (∀ x ∈ m.under pre, (x.2.byOcc.map (·.item)).Nodup) →
    (m.under pre).Pairwise fun x y => x.1 ≠ y.1) ?_ m
  intro i w l ih pre h
  rw [under_mk] at h ⊢
  rw [List.pairwise_cons, List.pairwise_flatMap]
  refine ⟨?_, ?_, ?_⟩
  · intro y hy e
    obtain ⟨c, _, hy⟩ := List.mem_flatMap.1 hy
    have := (under_prefix c _ y hy).length_le
    simp only [← e, List.length_append, List.length_cons, List.length_nil] at this
    omega
  · intro c hc
    exact ih c hc _ fun x hx => h x (List.mem_cons_of_mem _ (List.mem_flatMap.2 ⟨c, hc, hx⟩))
  · have h0 := h _ List.mem_cons_self
    simp only [GramNode.byOcc] at h0
    rw [List.Nodup, List.pairwise_map] at h0
    refine h0.imp ?_
    intro a b hab x hx y hy e
    obtain ⟨s, hs⟩ := under_prefix a _ x hx
    obtain ⟨s', hs'⟩ := under_prefix b _ y hy
    rw [← hs, ← hs'] at e
    simp only [List.append_assoc, List.append_cancel_left_eq, List.cons_append, List.cons.injEq, List.nil_append] at e
    exact hab e.2.1

theorem GramIndex.Has.ne_nil {ix : GramIndex G} {path : List G} {m : GramNode G} (h : ix.Has path m) : path ≠ [] := by
  cases h <;> simp

/-- All nodes of the trees with their paths. -/
def GramIndex.all (ix : GramIndex G) : List (List G × GramNode G) := ix.roots.flatMap fun e => e.2.under []

theorem GramIndex.all_iff {ix : GramIndex G} [DecidableEq G] (h : ix.Keyed) (path : List G) (m : GramNode G) :
    (path, m) ∈ ix.all ↔ ix.Has path m := by
  constructor
  · intro hx
    obtain ⟨e, he, hx⟩ := List.mem_flatMap.1 hx
    refine GramNode.under_has e.2 [] ?_ _ hx
    rw [h.rootItem e.1 e.2 he]
    exact .root he
  · intro hx
    induction hx with
    | root hr =>
      rename_i g r
      refine List.mem_flatMap.2 ⟨_, hr, ?_⟩
      have := h.rootItem g r hr
      cases r
      rw [GramNode.under_mk]
      simp only [GramNode.item] at this
      rw [this]; exact List.mem_cons_self
    | child _ hc ih =>
      obtain ⟨e, he, hx⟩ := List.mem_flatMap.1 ih
      exact List.mem_flatMap.2 ⟨e, he, GramNode.under_child _ _ _ hx _ hc⟩

theorem GramIndex.all_length (ix : GramIndex G) : ix.all.length = (ix.roots.map fun e => e.2.nodes).sum := by
  simp only [GramIndex.all, List.length_flatMap, GramNode.under_length]

theorem GramIndex.all_nodup {ix : GramIndex G} [DecidableEq G] [RDefault G] (h : ix.Keyed) : (ix.all.map (·.1)).Nodup := by
  rw [List.Nodup, List.pairwise_map, GramIndex.all, List.pairwise_flatMap]
  constructor
  · intro e he
    refine GramNode.under_nodup _ _ fun x hx => ?_
    have := (GramIndex.all_iff h x.1 x.2).1 (List.mem_flatMap.2 ⟨e, he, hx⟩)
    exact h.siblings x.1 x.2 ((h.has_iff _ _).1 this)
  · have h0 := h.roots
    rw [AMap.Wf, List.Nodup, List.pairwise_map] at h0
    refine List.Pairwise.imp_of_mem ?_ h0
    intro a b ha hb hab x hx y hy e
    obtain ⟨s, hs⟩ := GramNode.under_prefix a.2 _ x hx
    obtain ⟨s', hs'⟩ := GramNode.under_prefix b.2 _ y hy
    rw [← hs, ← hs'] at e
    simp only [List.cons_append, List.cons.injEq, List.nil_append] at e
    rw [h.rootItem a.1 a.2 ha, h.rootItem b.1 b.2 hb] at e
    exact hab e.1

/-- The trees have one node for every text of one to N characters that occurs inside a product's text, and no other:
`substrings` lists these without repetition. -/
theorem C80_nodes {t : Target} {o : HashOrd} {lower : Char → List Char} {parse : Str → Option F32} {n : Nat}
    {input : List RawProduct} {ix : GramIndex Char} {cl : Classic} (hn : 1 ≤ n)
    (h : buildAll t o lower parse n input = .ok (ix, cl)) (substrings : List (List Char)) (hnd : substrings.Nodup)
    (hs : ∀ s, s ∈ substrings ↔ s ≠ [] ∧ s.length ≤ n ∧ ∃ raw ∈ input, s <:+: textOf lower raw) :
    (ix.roots.map fun e => e.2.nodes).sum = substrings.length := by
  have hk : ix.Keyed := by rw [(builtAll_of_ok h).index]; exact indexFrom_keyed t o hn _ _
  rw [← ix.all_length, ← List.length_map (f := fun x : List Char × GramNode Char => x.1) (as := ix.all)]
  have hmem : ∀ s, s ∈ ix.all.map (·.1) ↔ s ∈ substrings := by
    intro s
    rw [hs]
    constructor
    · intro hm
      obtain ⟨x, hx, rfl⟩ := List.mem_map.1 hm
      have hx' := (GramIndex.all_iff hk x.1 x.2).1 hx
      have hne : x.1 ≠ [] := hx'.ne_nil
      exact ⟨hne, (C21_path_iff_substring hn h _ hne).1 ⟨_, hx'⟩⟩
    · rintro ⟨hne, hm⟩
      obtain ⟨m, hm⟩ := (C21_path_iff_substring hn h _ hne).2 hm
      exact List.mem_map.2 ⟨(s, m), (GramIndex.all_iff hk _ _).2 hm, rfl⟩
  exact Nat.le_antisymm ((GramIndex.all_nodup hk).length_le_of_subset fun s h => (hmem s).1 h)
    (hnd.length_le_of_subset fun s h => (hmem s).2 h)

theorem sum_le_sum {f g : α → Nat} (l : List α) (h : ∀ a ∈ l, f a ≤ g a) : (l.map f).sum ≤ (l.map g).sum := by
  induction l with
  | nil => simp
  | cons a l ih =>
    have h1 := h a (by simp)
    have h2 := ih fun b hb => h b (by simp [hb])
    simp only [List.map_cons, List.sum_cons]; omega

/-- So there are at most N nodes per character of the catalogue. -/
theorem C80_nodes_le {t : Target} {o : HashOrd} {lower : Char → List Char} {parse : Str → Option F32} {n : Nat}
    {input : List RawProduct} {ix : GramIndex Char} {cl : Classic} (hn : 1 ≤ n)
    (h : buildAll t o lower parse n input = .ok (ix, cl)) :
    (ix.roots.map fun e => e.2.nodes).sum ≤ n * totalChars lower input := by
  have hk : ix.Keyed := by rw [(builtAll_of_ok h).index]; exact indexFrom_keyed t o hn _ _
  let big := input.flatMap fun raw => (List.range (textOf lower raw).length).flatMap fun i =>
    (List.range n).map fun k => ((textOf lower raw).drop i).take (k + 1)
  have hbig : big.length = n * totalChars lower input := by
    simp only [big, List.length_flatMap, List.length_map, List.length_range, totalChars]
    clear hk h
    induction input with
    | nil => simp
    | cons raw input ih =>
      simp only [List.map_cons, List.sum_cons, ih, Nat.mul_add]
      rw [List.map_const', List.sum_replicate_nat, List.length_range, Nat.mul_comm]
  rw [← ix.all_length, ← hbig, ← List.length_map (f := fun x : List Char × GramNode Char => x.1) (as := ix.all)]
  refine (GramIndex.all_nodup hk).length_le_of_subset fun s hm => ?_
  obtain ⟨x, hx, rfl⟩ := List.mem_map.1 hm
  have hx' := (GramIndex.all_iff hk x.1 x.2).1 hx
  have hne : x.1 ≠ [] := hx'.ne_nil
  obtain ⟨hle, raw, hraw, pre, post, e⟩ := (C21_path_iff_substring hn h _ hne).1 ⟨_, hx'⟩
  have hpos : 1 ≤ x.1.length := by cases hx1 : x.1 with
    | nil => exact absurd hx1 hne
    | cons a l => simp
  refine List.mem_flatMap.2 ⟨raw, hraw, List.mem_flatMap.2 ⟨pre.length, ?_, List.mem_map.2 ⟨x.1.length - 1, ?_, ?_⟩⟩⟩
  · rw [List.mem_range, ← e]; simp only [List.length_append]; omega
  · rw [List.mem_range]; omega
  · rw [← e, List.append_assoc, List.drop_left, Nat.sub_add_cancel hpos, List.take_left]

theorem count_sum_le (ks : List (List Char)) (h : ks.Nodup) (ws : List (List Char)) :
    (ks.map fun k => ws.count k).sum ≤ ws.length := by
  induction ws with
  | nil =>
    simp only [List.count_nil, List.length_nil]
    induction ks with
    | nil => simp
    | cons k ks ih => simpa using ih h.tail
  | cons w ws ih =>
    have e : ∀ ks : List (List Char), ks.Nodup →
        (ks.map fun k => (w :: ws).count k).sum ≤ (ks.map fun k => ws.count k).sum + if w ∈ ks then 1 else 0 := by
      intro ks
      induction ks with
      | nil => simp
      | cons k ks ih =>
        intro h
        have h1 := ih h.tail
        have h2 := (List.nodup_cons.1 h).1
        simp only [List.map_cons, List.sum_cons, List.count_cons, beq_iff_eq] at h1 ⊢
        by_cases hw : w = k
        · subst hw
          rw [if_neg h2] at h1
          simp only [if_true, List.mem_cons, true_or]; omega
        · have : (w ∈ k :: ks) ↔ w ∈ ks := by simp [hw]
          simp only [hw, if_false, this]; omega
    have := e ks h
    split at this <;> simp only [List.length_cons] <;> omega

/-- All posting lists together have at most one entry per character of the catalogue. -/
theorem C80_postings {t : Target} {o : HashOrd} {lower : Char → List Char} {parse : Str → Option F32} {n : Nat}
    {input : List RawProduct} {ix : GramIndex Char} {cl : Classic} (hn : 1 ≤ n)
    (h : buildAll t o lower parse n input = .ok (ix, cl)) :
    (ix.data.map fun e => e.2.length).sum ≤ totalChars lower input ∧ ∀ e ∈ ix.data, e.2 ≠ [] := by
  obtain ⟨prices, b⟩ := (builtAll_of_ok h).built
  have hwf : AMap.Wf ix.data := by rw [(builtAll_of_ok h).index]; exact data_wf t o hn _ _
  have hget : ∀ e ∈ ix.data, e.2 ≠ [] ∧ e.2 = expectedPostings lower n ix.container.products input e.1 := by
    intro e he
    have hg := AMap.get_of_mem (k := e.1) (v := e.2) hwf he
    rw [C22_postings hn h] at hg
    simp only at hg
    split at hg
    · rename_i hc
      simp only [Option.some.injEq] at hg
      exact ⟨hg ▸ hc.1, hg.symm⟩
    · cases hg
  refine ⟨?_, fun e he => (hget e he).1⟩
  have e1 : (ix.data.map fun e => e.2.length) =
      (ix.data.map (·.1)).map fun k => (expectedPostings lower n ix.container.products input k).length := by
    rw [List.map_map]
    refine List.map_congr_left fun e he => ?_
    simp only [Function.comp_apply]
    rw [← (hget e he).2]
  rw [e1]
  have key : ∀ (ks : List (List Char)) (hk : ks.Nodup) (l : List (Product × RawProduct)),
      (ks.map fun k => (l.flatMap fun e => List.replicate ((paddedWindows n (textOf lower e.2)).count k) e.1).length).sum ≤
      (l.map fun e => (textOf lower e.2).length).sum := by
    intro ks hk l
    induction l with
    | nil =>
      simp only [List.flatMap_nil, List.length_nil, List.map_nil, List.sum_nil]
      clear hk
      induction ks with
      | nil => simp
      | cons k ks ih => simpa using ih
    | cons e l ih =>
      simp only [List.flatMap_cons, List.length_append, List.length_replicate, List.map_cons, List.sum_cons]
      have h1 := count_sum_le ks hk (paddedWindows n (textOf lower e.2))
      have h2 : (paddedWindows n (textOf lower e.2)).length = (textOf lower e.2).length := by simp [paddedWindows]
      have h3 : ∀ (f g : List Char → Nat), (ks.map fun k => f k + g k).sum = (ks.map f).sum + (ks.map g).sum := by
        intro f g
        clear hk ih h1
        induction ks with
        | nil => rfl
        | cons k ks ih => simp only [List.map_cons, List.sum_cons, ih]; omega
      rw [h3]; omega
  refine Nat.le_trans (key _ hwf _) ?_
  have e2 : ((ix.container.products.zip input).map fun e => (textOf lower e.2).length) =
      input.map fun raw => (textOf lower raw).length := by
    have : (ix.container.products.zip input).map (·.2) = input := List.map_snd_zip (by rw [b.length]; exact Nat.le_refl _)
    conv => rhs; rw [← this, List.map_map]
    rfl
  rw [e2]; exact Nat.le_refl _

/-! ## A case -/

/-- One product with the text "aba". -/
def aba : List RawProduct := [mkRaw ['a', 'b'] ['a'] ['1']]

theorem aba_substrings (s : List Char) : s ∈ [['a'], ['b'], ['a', 'b'], ['b', 'a']] ↔
    s ≠ [] ∧ s.length ≤ 2 ∧ ∃ raw ∈ aba, s <:+: textOf (fun c => [c]) raw := by
  have ht : textOf (fun c => [c]) (mkRaw ['a', 'b'] ['a'] ['1']) = ['a', 'b', 'a'] := by decide
  simp only [aba, List.mem_singleton, exists_eq_left, ht]
  constructor
  · intro h
    simp only [List.mem_cons, List.not_mem_nil, or_false] at h
    rcases h with rfl | rfl | rfl | rfl
    · exact ⟨by simp, by simp, [], ['b', 'a'], rfl⟩
    · exact ⟨by simp, by simp, ['a'], ['a'], rfl⟩
    · exact ⟨by simp, by simp, [], ['a'], rfl⟩
    · exact ⟨by simp, by simp, ['a'], [], rfl⟩
  · rintro ⟨hne, hle, pre, post, e⟩
    have h1 : s = ((['a', 'b', 'a'] : List Char).drop pre.length).take s.length := by
      rw [← e, List.append_assoc, List.drop_left, List.take_left]
    have h2 : pre.length < 3 := by
      have := congrArg List.length e
      have : 1 ≤ s.length := List.length_pos_iff.2 hne
      simp at *; omega
    have h3 : 1 ≤ s.length := List.length_pos_iff.2 hne
    have key : ∀ i < 3, ∀ k < 3, 1 ≤ k → ((['a', 'b', 'a'] : List Char).drop i).take k ∈ [['a'], ['b'], ['a', 'b'], ['b', 'a']] := by
      decide
    rw [h1]
    exact key _ h2 _ (by omega) h3

/-- The hypotheses of `C80_nodes`, `C80_nodes_le` and `C80_postings` are met by "aba": with N = 2 the trees have the four
nodes a, b, ab and ba, not the six the bound allows. -/
example : ∃ ix cl, buildAll .debug64 .ident (fun c => [c]) parseOne 2 aba = .ok (ix, cl) ∧
    (ix.roots.map fun e => e.2.nodes).sum = 4 ∧ 2 * totalChars (fun c => [c]) aba = 6 := by
  obtain ⟨ix, cl, h⟩ := buildAll_ok .debug64 .ident (fun c => [c]) parseOne 2 aba [F32.one] rfl
  exact ⟨ix, cl, h, C80_nodes (by decide) h _ (by decide) aba_substrings, by decide⟩

end Idx
