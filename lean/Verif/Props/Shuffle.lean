import Verif.Props.Determinism
import Verif.Lemmas.Heap
import Verif.Props.Index
import Verif.Lemmas.Run
/-! # C117: hash tables only shuffle the bytes of a file -/
namespace Idx

theorem flatMap_perm_left {α β : Type} {f g : α → List β} : ∀ {l : List α}, (∀ a ∈ l, (f a).Perm (g a)) → (l.flatMap f).Perm (l.flatMap g)
  | [], _ => .refl _
  | a :: l, h => by
    simp only [List.flatMap_cons]
    exact (h a (by simp)).append (flatMap_perm_left fun b hb => h b (by simp [hb]))

/-- A node is written with the same bytes. -/
theorem node_shuffled (o o' : HashOrd) : ∀ (m : MNode Char) (path : List Char) (k : Nat),
    (serNode (immutalize o path k m)).Perm (serNode (immutalize o' path k m))
  | .mk item occ items, path, k => by
    rw [immutalize_mk, immutalize_mk, serNode_mk, serNode_mk]
    have hp : ∀ o : HashOrd, (stableSort (fun a b => (GramNode.cmp a b).swap != .gt)
        (o.order (path ++ [item]) (items.map (immutalize o (path ++ [item]) occ)))).Perm (items.map (immutalize o (path ++ [item]) occ)) :=
      fun o => (stableSort_perm _ _).trans (o.perm _ _)
    unfold serVec
    rw [(hp o).length_eq, (hp o').length_eq, List.length_map, List.length_map]
    refine List.Perm.append_left _ (List.Perm.append_left _ (List.Perm.append_left _ ?_))
    refine ((hp o).flatMap_right serNode).trans (.trans ?_ ((hp o').flatMap_right serNode).symm)
    rw [List.flatMap_map, List.flatMap_map]
    exact flatMap_perm_left fun m hm => node_shuffled o o' m _ _

theorem map_shuffled {K V σ τ : Type} (o o' : HashOrd) (site : σ) (site' : τ) (serK : K → Bytes) (serV : V → Bytes) {m m' : AMap K V} (h : m.Perm m') :
    (serMap o site serK serV m).Perm (serMap o' site' serK serV m') := by
  unfold serMap serMapEntries
  have hp := ((o.perm site m).trans h).trans (o'.perm site' m').symm
  rw [hp.length_eq]
  exact List.Perm.append_left _ (hp.flatMap_right _)

theorem optimize_shuffled {o o' : HashOrd} {parse : Str → Option F32} {input : List RawProduct} {c c' : Container} {cl cl' : Classic}
    (h : optimize o parse input = .ok (c, cl)) (h' : optimize o' parse input = .ok (c', cl')) :
    c = c' ∧ cl.categories = cl'.categories ∧ cl.order = cl'.order ∧ (cl.tags.map fun t => (t.name, t.products)).Perm (cl'.tags.map fun t => (t.name, t.products)) := by
  unfold optimize at h h'
  obtain ⟨⟨products, extra⟩, h1, h⟩ := Res.bind_eq_ok.1 h
  obtain ⟨⟨products', extra'⟩, h1', h'⟩ := Res.bind_eq_ok.1 h'
  rw [h1] at h1'
  cases h1'
  obtain ⟨tags, h2, h⟩ := Res.bind_eq_ok.1 h
  obtain ⟨tags', h2', h'⟩ := Res.bind_eq_ok.1 h'
  obtain ⟨order, h3, h⟩ := Res.bind_eq_ok.1 h
  obtain ⟨order', h3', h'⟩ := Res.bind_eq_ok.1 h'
  rw [h3] at h3'
  cases h3'
  obtain ⟨cats, h4, h⟩ := Res.bind_eq_ok.1 h
  obtain ⟨cats', h4', h'⟩ := Res.bind_eq_ok.1 h'
  rw [h4] at h4'
  cases h4'
  simp only [Res.pure_eq, Res.ok.injEq, Prod.mk.injEq] at h h'
  obtain ⟨rfl, rfl⟩ := h
  obtain ⟨rfl, rfl⟩ := h'
  refine ⟨rfl, rfl, rfl, ?_⟩
  unfold tagIndex at h2 h2'
  obtain ⟨m, h5, h2⟩ := Res.bind_eq_ok.1 h2
  obtain ⟨m', h5', h2'⟩ := Res.bind_eq_ok.1 h2'
  rw [h5] at h5'
  cases h5'
  simp only [Res.pure_eq, Res.ok.injEq] at h2 h2'
  have hview : ∀ l : List (Str × List Product), (l.mapIdx fun id e => Tag.new e.1 e.2 id).map (fun t => (t.name, t.products)) = l := by
    intro l
    apply List.ext_getElem?
    intro i
    rw [List.getElem?_map, List.getElem?_mapIdx]
    cases l[i]? <;> rfl
  rw [← h2, ← h2', hview, hview]
  exact (o.perm _ m).trans (o'.perm _ m).symm

/-- Two files of one catalogue consist of the same bytes in perhaps another order, whatever the hash orders of building and writing, on
machines that drop the same posting lists. -/
theorem C117 {t t' : Target} {o o' : HashOrd} {lower : Char → List Char} {parse : Str → Option F32} {n : Nat} {input : List RawProduct}
    {ix ix' : GramIndex Char} {cl cl' : Classic} (h : buildAll t o lower parse n input = .ok (ix, cl))
    (h' : buildAll t' o' lower parse n input = .ok (ix', cl'))
    (hm : maximumProductAmount t input.length = maximumProductAmount t' input.length) (w w' : HashOrd) :
    (serializeAll w ix cl).Perm (serializeAll w' ix' cl') := by
  have hc := buildAll_container h
  have hc' := buildAll_container h'
  obtain ⟨e, hcats, hord, htags⟩ := optimize_shuffled hc hc'
  obtain ⟨prices, b⟩ := (builtAll_of_ok h).built
  have hlen := b.length
  have hix := (builtAll_of_ok h).index
  have hix' := (builtAll_of_ok h').index
  rw [← e] at hix'
  have hdata : ix.data = ix'.data := by
    rw [hix, hix']
    unfold indexFrom
    simp only [hlen, hm]
  have hroots : (serMap w "roots" serChar serNode ix.roots).Perm (serMap w' "roots" serChar serNode ix'.roots) := by
    rw [hix, hix']
    unfold indexFrom serMap serMapEntries
    generalize (ix.container.products.map (feedOf lower)).foldl (buildFeed n) ([], []) = st
    have hp : ∀ (w o : HashOrd), (w.order "roots" (o.order "roots" (st.1.map fun m => (m.item, immutalize o [] (st.1.map (·.occ)).sum m)))).Perm
        (st.1.map fun m => (m.item, immutalize o [] (st.1.map (·.occ)).sum m)) := fun w o => (w.perm _ _).trans (o.perm _ _)
    simp only
    rw [(hp w o).length_eq, (hp w' o').length_eq, List.length_map, List.length_map]
    refine List.Perm.append_left _ (((hp w o).flatMap_right _).trans (.trans ?_ ((hp w' o').flatMap_right _).symm))
    rw [List.flatMap_map, List.flatMap_map]
    exact flatMap_perm_left fun m _ => List.Perm.append_left _ (node_shuffled o o' m _ _)
  unfold serializeAll serGramIndex serClassic
  refine List.Perm.append (List.Perm.append (List.Perm.append ?_ hroots) ?_) (List.Perm.append (List.Perm.append ?_ ?_) ?_)
  · rw [← e]
    unfold serContainer
    refine List.Perm.append (List.Perm.append_right _ ?_) (map_shuffled w w' _ _ _ _ (.refl _))
    unfold serVendors
    have hp : ∀ w : HashOrd, (stableSort (fun a b : Vendor => decide (a.id ≤ b.id)) ((w.order "vendors" ix.container.vendors.tags).map (·.2))).Perm
        (ix.container.vendors.tags.map (·.2)) := fun w => (stableSort_perm _ _).trans ((w.perm _ _).map _)
    have hp2 := (hp w).trans (hp w').symm
    simp only
    rw [hp2.length_eq]
    exact List.Perm.append_left _ (hp2.flatMap_right _)
  · rw [← hdata]
    exact List.Perm.append_left _ ((((w.perm "data" ix.data)).trans (w'.perm "data" ix.data).symm).flatMap_right _)
  · rw [hcats]
  · unfold serTags serVec
    have hl := htags.length_eq
    rw [List.length_map, List.length_map] at hl
    rw [hl]
    refine List.Perm.append_left _ ?_
    have hv : ∀ l : List Tag, l.flatMap serTag = (l.map fun t => (t.name, t.products)).flatMap fun e => serStr e.1 ++ serProductSeq e.2 := by
      intro l
      rw [List.flatMap_map]
      rfl
    rw [hv, hv]
    exact htags.flatMap_right _
  · rw [hord]
    exact map_shuffled w w' _ _ _ _ (.refl _)

/-- So they are equally long; on real machines always, up to 2^20 products. -/
theorem C117_length {t t' : Target} {o o' : HashOrd} {lower : Char → List Char} {parse : Str → Option F32} {n : Nat} {input : List RawProduct}
    {bytes bytes' : Bytes} (ht : t.Real) (ht' : t'.Real) (hsmall : input.length ≤ 2 ^ 20)
    (h : indexAndSerialize t o lower parse n input = .ok bytes) (h' : indexAndSerialize t' o' lower parse n input = .ok bytes') :
    bytes.Perm bytes' ∧ bytes.length = bytes'.length := by
  obtain ⟨ix, cl, h1, rfl⟩ := indexAndSerialize_ok h
  obtain ⟨ix', cl', h1', rfl⟩ := indexAndSerialize_ok h'
  have := C117 h1 h1' (by rw [C22_cutoff t ht _ hsmall, C22_cutoff t' ht' _ hsmall]) o o'
  exact ⟨this, this.length_eq⟩

set_option maxRecDepth 20000

/-- 128 products without text and one with a tag. -/
def oneTagged : List RawProduct := List.replicate 128 (mkRaw [] [] []) ++ [{ mkRaw [] [] [] with tags := [['a']] }]

/-- The order of the products is not only a matter of shuffling: with the same products in reverse the file is a byte shorter. -/
theorem C117_false : ∃ bytes bytes' : Bytes, indexAndSerialize .debug64 .ident (fun c => [c]) parseOne 1 oneTagged = .ok bytes ∧
    indexAndSerialize .debug64 .ident (fun c => [c]) parseOne 1 oneTagged.reverse = .ok bytes' ∧ bytes.length = bytes'.length + 1 := by
  have h : (((runFile .debug64 parseOne 1 oneTagged).map (·.length)).bind fun a =>
      (runFile .debug64 parseOne 1 oneTagged.reverse).map fun b => a == b.length + 1) = some true := by decide +kernel
  obtain ⟨a, h1, h2⟩ := Option.bind_eq_some_iff.1 h
  obtain ⟨bytes, g1, rfl⟩ := Option.map_eq_some_iff.1 h1
  obtain ⟨bytes', g2, e⟩ := Option.map_eq_some_iff.1 h2
  obtain ⟨_, _, _, _, h3⟩ := runFile_sound (by omega) (by omega) g1
  obtain ⟨_, _, _, _, h4⟩ := runFile_sound (by omega) (by omega) g2
  exact ⟨bytes, bytes', h3, h4, by simpa using e⟩

end Idx
