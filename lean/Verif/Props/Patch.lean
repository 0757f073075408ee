import Verif.Props.AnyFile
import Verif.Props.Shop
/-
C122: editing the texts of one product inside a written file.
-/
namespace Idx

/-- Spec: the product numbered `i` gets another description and title; every other product stays. -/
def retext (i : Nat) (desc title : Str) (p : Product) : Product :=
  if p.sid = i then { p with description := desc, title := title } else p

theorem retext_sid (i : Nat) (d s : Str) (p : Product) : (retext i d s p).sid = p.sid := by
  unfold retext; split <;> rfl

theorem retext_id (i : Nat) (d s : Str) (p : Product) : (retext i d s p).id = p.id := by
  unfold retext; split <;> rfl

theorem retext_vendor (i : Nat) (d s : Str) (p : Product) : (retext i d s p).vendor = p.vendor := by
  unfold retext; split <;> rfl

theorem reload_retext (i : Nat) (d s : Str) (p : Product) :
    reloadProduct (retext i d s p) = retext i (limitStringLen d 100) s (reloadProduct p) := by
  unfold retext
  by_cases h : p.sid = i
  · rw [if_pos h, if_pos (show (reloadProduct p).sid = i from h)]; rfl
  · rw [if_neg h, if_neg (show ¬ (reloadProduct p).sid = i from h)]

theorem map_retext_sid (i : Nat) (d s : Str) (l : List Product) : (l.map (retext i d s)).map (·.sid) = l.map (·.sid) := by
  rw [List.map_map]; exact List.map_congr_left fun p _ => retext_sid i d s p

theorem map_reload_retext (i : Nat) (d s : Str) (l : List Product) :
    (l.map (retext i d s)).map reloadProduct = (l.map reloadProduct).map (retext i (limitStringLen d 100) s) := by
  rw [List.map_map, List.map_map]; exact List.map_congr_left fun p _ => reload_retext i d s p

/-! ## An index with the texts of one product replaced in every copy -/

def editGram (i : Nat) (d s : Str) (ix : GramIndex Char) : GramIndex Char :=
  { container := { ix.container with products := ix.container.products.map (retext i d s) }
    roots := ix.roots
    data := ix.data.map fun e => (e.1, e.2.map (retext i d s)) }

def editTag (i : Nat) (d s : Str) (t : Tag) : Tag := { t with products := t.products.map (retext i d s) }

def editOption (i : Nat) (d s : Str) (op : CatOption) : CatOption := { op with content := op.content.map (retext i d s) }

def editCategory (i : Nat) (d s : Str) (c : Category) : Category := { c with options := c.options.map (editOption i d s) }

def editClassic (i : Nat) (d s : Str) (cl : Classic) : Classic :=
  { cl with categories := cl.categories.map (editCategory i d s), tags := cl.tags.map (editTag i d s) }

theorem Listed.edit {i : Nat} {d s : Str} {c : Container} {l : List Product} (h : Listed c l) :
    Listed { c with products := c.products.map (retext i d s) } (l.map (retext i d s)) := by
  refine ⟨?_, by rw [map_retext_sid]; exact h.sorted⟩
  intro p hp
  obtain ⟨q, hq, rfl⟩ := List.mem_map.1 hp
  have := h.mem q hq
  simp only [List.getElem?_map]
  rw [retext_sid, this]; rfl

theorem GramWf.edit {i : Nat} {d s : Str} {n : Nat} {ix : GramIndex Char} (h : GramWf n ix) : GramWf n (editGram i d s ix) := by
  refine ⟨⟨h.container.vendors, ?_, ?_, h.container.extra⟩, h.roots, ?_, ?_⟩
  · intro j p hp
    simp only [editGram, List.getElem?_map] at hp
    obtain ⟨q, hq, rfl⟩ := Option.map_eq_some_iff.1 hp
    rw [retext_sid]; exact h.container.sid j q hq
  · intro p hp
    obtain ⟨q, hq, rfl⟩ := List.mem_map.1 hp
    rw [retext_vendor]; exact h.container.vendor q hq
  · have := h.data
    simpa [AMap.Wf, editGram, List.map_map, Function.comp_def] using this
  · intro e he
    obtain ⟨e', he', rfl⟩ := List.mem_map.1 he
    obtain ⟨h1, h2⟩ := h.grams e' he'
    exact ⟨h1, h2.edit⟩

theorem ClassicWf.edit {i : Nat} {d s : Str} {c : Container} {cl : Classic} (h : ClassicWf c cl) :
    ClassicWf { c with products := c.products.map (retext i d s) } (editClassic i d s cl) := by
  refine ⟨?_, ?_, ?_, h.order, ?_⟩
  · intro t ht
    obtain ⟨t', ht', rfl⟩ := List.mem_map.1 ht
    exact (h.tags t' ht').edit
  · intro j t ht
    simp only [editClassic, List.getElem?_map] at ht
    obtain ⟨t', ht', rfl⟩ := Option.map_eq_some_iff.1 ht
    exact h.tagIds j t' ht'
  · intro cat hcat op hop
    obtain ⟨cat', hc', rfl⟩ := List.mem_map.1 hcat
    obtain ⟨op', ho', rfl⟩ := List.mem_map.1 hop
    exact (h.options cat' hc' op' ho').edit
  · intro e he r hr
    simp only [List.length_map]
    exact h.ranks e he r hr

/-- Reading back the edited index is editing what is read back. -/
theorem reload_editGram (i : Nat) (d s : Str) (ix : GramIndex Char) :
    reloadGram .ident (editGram i d s ix) = editGram i (limitStringLen d 100) s (reloadGram .ident ix) := by
  have hid : ∀ {σ : Type} (site : σ) {α : Type} (l : List α), HashOrd.ident.order site l = l := fun _ _ _ => rfl
  simp only [reloadGram, editGram, reloadContainer, hid, List.map_map, Function.comp_def, reload_retext]

theorem reload_editOptions (i : Nat) (d s : Str) (l : List CatOption) : ∀ j,
    reloadOptions j (l.map (editOption i d s)) = (reloadOptions j l).map (editOption i (limitStringLen d 100) s) := by
  induction l with
  | nil => intro _; rfl
  | cons a l ih =>
    intro j
    simp only [List.map_cons, reloadOptions, ih, reloadOption, editOption, map_reload_retext, map_retext_sid]

theorem reload_editCategories (i : Nat) (d s : Str) (l : List Category) : ∀ j,
    reloadCategories j (l.map (editCategory i d s)) = (reloadCategories j l).map (editCategory i (limitStringLen d 100) s) := by
  induction l with
  | nil => intro _; rfl
  | cons a l ih =>
    intro j
    simp only [List.map_cons, reloadCategories, ih, editCategory, reload_editOptions, List.length_map]

theorem reload_editClassic (i : Nat) (d s : Str) (cl : Classic) :
    reloadClassic .ident (editClassic i d s cl) = editClassic i (limitStringLen d 100) s (reloadClassic .ident cl) := by
  simp only [reloadClassic, editClassic, reload_editCategories, List.map_map, Function.comp_def, reloadTag, editTag,
    reload_retext, retext_sid]

/-! ## The bytes -/

theorem serProductSeq_edit (i : Nat) (d s : Str) (l : List Product) : serProductSeq (l.map (retext i d s)) = serProductSeq l := by
  simp only [serProductSeq, map_retext_sid]

theorem serClassic_edit (i : Nat) (d s : Str) (cl : Classic) : serClassic .ident (editClassic i d s cl) = serClassic .ident cl := by
  simp only [serClassic, editClassic, serCategories, serTags, serVec, List.length_map, List.flatMap_map, serTag, editTag, serCategory,
    editCategory, serCatOption, editOption, serProductSeq_edit]
  rfl

/-- Spec: the bytes of one product, from its four parts. -/
def productBytes (desc title id : Str) (vendor : Nat) : Bytes :=
  serStrWithLimit desc 100 ++ serStr title ++ serStr id ++ serUsize vendor

theorem flatMap_edit {d s : Str} {i : Nat} {p : Product} {l : List Product} (hs : ∀ (j : Nat) (q : Product), l[j]? = some q → q.sid = j)
    (hp : l[i]? = some p) : ∃ pre post : Bytes, l.flatMap serProduct = pre ++ productBytes p.description p.title p.id p.vendor.id ++ post ∧
      pre = (l.take i).flatMap serProduct ∧ post = (l.drop (i + 1)).flatMap serProduct ∧
      (l.map (retext i d s)).flatMap serProduct = pre ++ productBytes d s p.id p.vendor.id ++ post := by
  refine ⟨_, _, ?_, rfl, rfl, ?_⟩
  · have hl : i < l.length := (List.getElem?_eq_some_iff.1 hp).1
    have e : l = l.take i ++ p :: l.drop (i + 1) := by
      rw [← (List.getElem?_eq_some_iff.1 hp).2, List.getElem_cons_drop, List.take_append_drop]
    conv => lhs; rw [e]
    simp only [List.flatMap_append, List.flatMap_cons, List.append_assoc, productBytes, serProduct]
  · have e : l = l.take i ++ p :: l.drop (i + 1) := by
      rw [← (List.getElem?_eq_some_iff.1 hp).2, List.getElem_cons_drop, List.take_append_drop]
    have h1 : (l.take i).map (retext i d s) = l.take i := by
      conv => rhs; rw [← List.map_id (l.take i)]
      refine List.map_congr_left fun q hq => ?_
      obtain ⟨j, hj⟩ := List.getElem?_of_mem hq
      rw [List.getElem?_take] at hj
      split at hj
      · rename_i hlt
        have := hs j q hj
        unfold retext; rw [if_neg (by omega)]; rfl
      · cases hj
    have h2 : (l.drop (i + 1)).map (retext i d s) = l.drop (i + 1) := by
      conv => rhs; rw [← List.map_id (l.drop (i + 1))]
      refine List.map_congr_left fun q hq => ?_
      obtain ⟨j, hj⟩ := List.getElem?_of_mem hq
      rw [List.getElem?_drop] at hj
      have := hs _ q hj
      unfold retext; rw [if_neg (by omega)]; rfl
    have h3 : serProduct (retext i d s p) = productBytes d s p.id p.vendor.id := by
      unfold retext; rw [if_pos (hs i p hp)]; rfl
    conv => lhs; rw [e]
    simp only [List.map_append, List.map_cons, h1, h2, List.flatMap_append, List.flatMap_cons, h3, List.append_assoc]

theorem serializeAll_edit {ix : GramIndex Char} {cl : Classic} {i : Nat} {p : Product}
    (hs : ∀ (j : Nat) (q : Product), ix.container.products[j]? = some q → q.sid = j) (hp : ix.container.products[i]? = some p) :
    ∃ pre post : Bytes, serializeAll .ident ix cl = pre ++ productBytes p.description p.title p.id p.vendor.id ++ post ∧
      ∀ (d s : Str), serializeAll .ident (editGram i d s ix) (editClassic i d s cl) = pre ++ productBytes d s p.id p.vendor.id ++ post := by
  have hid : ∀ {σ : Type} (site : σ) {α : Type} (l : List α), HashOrd.ident.order site l = l := fun _ _ _ => rfl
  obtain ⟨a, b, e0, ha, hb, _⟩ := flatMap_edit (d := []) (s := []) hs hp
  refine ⟨serVendors .ident ix.container.vendors ++ (serUsize ix.container.products.length ++ a),
    b ++ (serFeatureSet .ident ix.container.extra ++ (serMap .ident "roots" serChar serNode ix.roots ++
      (serUsize ix.data.length ++ (ix.data.flatMap serPosting ++ serClassic .ident cl)))), ?_, ?_⟩
  · simp only [serializeAll, serGramIndex, serContainer, serVec, e0, hid, List.append_assoc]
  · intro d s
    obtain ⟨a', b', _, ha', hb', e1⟩ := flatMap_edit (d := d) (s := s) hs hp
    rw [ha', hb', ← ha, ← hb] at e1
    have hpost : ∀ e : List Char × List Product, serPosting (e.1, e.2.map (retext i d s)) = serPosting e := fun e => by
      simp only [serPosting, serProductSeq_edit]
    simp only [serializeAll, serClassic_edit]
    simp only [serGramIndex, editGram, serContainer, serVec, e1, hid, List.append_assoc, List.length_map, List.flatMap_map, hpost]

/-! ## The claims -/

/-- Spec: index `b` is index `a` with another product at position `i`, and nothing else changed: every list holds the same
positions in the same order. -/
structure Patched (i : Nat) (q : Product) (a b : GramIndex Char × Classic) : Prop where
  products : b.1.container.products = a.1.container.products.set i q
  vendors : b.1.container.vendors = a.1.container.vendors
  extra : b.1.container.extra = a.1.container.extra
  roots : b.1.roots = a.1.roots
  postings : b.1.data.map (fun e => (e.1, e.2.map (·.sid))) = a.1.data.map (fun e => (e.1, e.2.map (·.sid)))
  tags : b.2.tags.map (fun t => (t.name, t.id, t.products.map (·.sid), t.ids)) =
    a.2.tags.map (fun t => (t.name, t.id, t.products.map (·.sid), t.ids))
  categories : b.2.categories.map (fun c => (c.name, c.exclusive, c.options.map fun op => (op.name, op.sid, op.content.map (·.sid), op.ids))) =
    a.2.categories.map (fun c => (c.name, c.exclusive, c.options.map fun op => (op.name, op.sid, op.content.map (·.sid), op.ids)))
  order : b.2.order = a.2.order

theorem map_retext_set {i : Nat} {d s : Str} {p : Product} {l : List Product} (hs : ∀ (j : Nat) (q : Product), l[j]? = some q → q.sid = j)
    (hp : l[i]? = some p) : l.map (retext i d s) = l.set i { p with description := d, title := s } := by
  apply List.ext_getElem?
  intro j
  rw [List.getElem?_map, List.getElem?_set]
  have hl : i < l.length := (List.getElem?_eq_some_iff.1 hp).1
  by_cases hj : i = j
  · subst hj
    rw [hp, if_pos rfl, if_pos hl, Option.map_some, retext, if_pos (hs i p hp)]
  · rw [if_neg hj]
    cases hq : l[j]? with
    | none => rfl
    | some q =>
      have := hs j q hq
      rw [Option.map_some, retext, if_neg (by omega)]

theorem patched_edit {i : Nat} {d s : Str} {p : Product} {a : GramIndex Char × Classic}
    (hs : ∀ (j : Nat) (q : Product), a.1.container.products[j]? = some q → q.sid = j) (hp : a.1.container.products[i]? = some p) :
    Patched i { p with description := d, title := s } a (editGram i d s a.1, editClassic i d s a.2) := by
  refine ⟨map_retext_set hs hp, rfl, rfl, rfl, ?_, ?_, ?_, rfl⟩
  · simp only [editGram, List.map_map]
    exact List.map_congr_left fun e _ => by simp only [Function.comp, map_retext_sid]
  · simp only [editClassic, List.map_map]
    exact List.map_congr_left fun e _ => by simp only [Function.comp, editTag, map_retext_sid]
  · simp only [editClassic, List.map_map]
    refine List.map_congr_left fun e _ => ?_
    simp only [Function.comp, editCategory, List.map_map]
    refine congrArg _ (congrArg _ (List.map_congr_left fun e _ => ?_))
    simp only [Function.comp, editOption, map_retext_sid]

/-- What loading the edited bytes gives, in terms of the edited index. -/
theorem load_edited {t' o n ix cl} (hix : GramWf n ix) (hcl : ClassicWf ix.container cl) {i : Nat} {p : Product}
    (hp : ix.container.products[i]? = some p) : ∃ pre post : Bytes,
      serializeAll o ix cl = pre ++ productBytes p.description p.title p.id p.vendor.id ++ post ∧
      ∀ (d s : Str), Fits t' (pre ++ productBytes d s p.id p.vendor.id ++ post).length → ∀ (rest : Bytes),
        deserializeAll t' n (pre ++ productBytes d s p.id p.vendor.id ++ post ++ rest) =
          .ok (editGram i (limitStringLen d 100) s (reloadGram o ix), editClassic i (limitStringLen d 100) s (reloadClassic o cl)) := by
  have hw := hix.reload (o := o)
  have hc := hcl.reload (o := o)
  have hp' : (reloadGram o ix).container.products[i]? = some (reloadProduct p) := by
    simp only [reloadGram, reloadContainer, List.getElem?_map, hp, Option.map_some]
  obtain ⟨pre, post, e1, e2⟩ := serializeAll_edit (cl := reloadClassic o cl) hw.container.sid hp'
  have hset := settled_reload o hix hcl
  have hid : ∀ {σ : Type} (site : σ) {α : Type} (l : List α), HashOrd.ident.order site l = l := fun _ _ _ => rfl
  have r1 : reloadGram .ident (reloadGram o ix) = reloadGram o ix := by
    have := hset.products
    simp only [reloadGram, reloadContainer, hid, map_reload_idem, List.map_map, Function.comp_def, reloadProduct_idem]
  have r2 : reloadClassic .ident (reloadClassic o cl) = reloadClassic o cl := by
    have h1 := hset.categories
    have h2 := hset.tags
    simp only [reloadClassic, hid] at h1 h2 ⊢
    rw [h1, h2]
  refine ⟨pre, post, ?_, fun d s hf rest => ?_⟩
  · rw [← serializeAll_reload o hix, e1]
    simp only [productBytes, reloadProduct, serStrWithLimit, limit_idem]
  · have e3 := e2 d s
    change _ = pre ++ productBytes d s p.id p.vendor.id ++ post at e3
    rw [← e3] at hf ⊢
    rw [deserializeAll_fit .ident hw.edit hc.edit hf rest, reload_editGram, reload_editClassic, r1, r2]

/-- C122: in a written file the bytes of one product can be replaced by those of any other texts, of any length, and the file still
loads as if nothing had happened: the product shows the new title and the new description, cut to 100 bytes, and nothing else is
different. -/
theorem C122 {t t' o lower parse n input ix cl ix' cl'} (hn : 1 ≤ n) (h : buildAll t o lower parse n input = .ok (ix, cl))
    (hl : deserializeAll t' n (serializeAll o ix cl) = .ok (ix', cl')) (hf : Fits t' (serializeAll o ix cl).length) {i : Nat} {p : Product}
    (hp : ix.container.products[i]? = some p) : ∃ pre post : Bytes,
      serializeAll o ix cl = pre ++ productBytes p.description p.title p.id p.vendor.id ++ post ∧
      ∀ (desc title : Str), Fits t' (pre ++ productBytes desc title p.id p.vendor.id ++ post).length → ∀ (rest : Bytes),
        ∃ b, deserializeAll t' n (pre ++ productBytes desc title p.id p.vendor.id ++ post ++ rest) = .ok b ∧
          Patched i { p with description := limitStringLen desc 100, title := title } (ix', cl') b := by
  have hix := gramWf_of_built hn h
  have hcl := classicWf_of_built h
  have hl' := deserializeAll_fit o hix hcl hf []
  rw [List.append_nil, hl] at hl'
  cases hl'
  obtain ⟨pre, post, e1, e2⟩ := load_edited (t' := t') (o := o) hix hcl hp
  refine ⟨pre, post, e1, fun d s hf' rest => ⟨_, e2 d s hf' rest, ?_⟩⟩
  have hp' : (reloadGram o ix).container.products[i]? = some (reloadProduct p) := by
    simp only [reloadGram, reloadContainer, List.getElem?_map, hp, Option.map_some]
  exact patched_edit (p := reloadProduct p) (a := (reloadGram o ix, reloadClassic o cl)) (hix.reload (o := o)).container.sid hp'

theorem rank_map_ids (f : Product → Product) (hf : ∀ p, (f p).id = p.id) (hits : List (Product × F32)) :
    rank (hits.map fun h => (f h.1, h.2)) = (rank hits).map fun e => (e.1, (f e.2.1, e.2.2)) := by
  unfold rank
  have : ∀ (hits : List (Product × F32)) (r : Ranker),
      (hits.map fun h => (f h.1, h.2)).foldl (fun r h => Ranker.add r h.1 h.2)
        (r.map fun e => (e.1, (f e.2.1, e.2.2))) =
      (hits.foldl (fun r h => Ranker.add r h.1 h.2) r).map fun e => (e.1, (f e.2.1, e.2.2)) := by
    intro hits
    induction hits with
    | nil => intro r; rfl
    | cons h hits ih =>
      intro r
      simp only [List.map_cons, List.foldl_cons]
      rw [← ih]
      congr 1
      unfold Ranker.add
      rw [hf]
      exact (upsert_map r h.1.id (fun e => (e.1, F32.add e.2 h.2)) (fun e => (e.1, F32.add e.2 h.2)) (h.1, h.2)
        (fun v => (f v.1, v.2)) (fun _ => rfl)).symm
  exact this hits []

theorem hitsOf_edit (ix : GramIndex Char) (i : Nat) (d s : Str) (n : Nat) (query : List Char) :
    hitsOf (editGram i d s ix) n query = (hitsOf ix n query).map fun h => (retext i d s h.1, h.2) := by
  have hg : ∀ w, (editGram i d s ix).searchGram n w = ix.searchGram n w := fun w => searchGram_of_roots (fun _ => rfl) n w
  unfold hitsOf
  generalize paddedWindows n query = l
  induction l with
  | nil => rfl
  | cons w l ih =>
    simp only [List.flatMap_cons, List.map_append, ih]
    congr 1
    unfold hitsOfWindow
    rw [hg]
    split
    · rename_i found conf _
      have := AMap.get_map ix.data (fun _ l => l.map (retext i d s)) found
      rw [show (editGram i d s ix).data = ix.data.map fun e => (e.1, e.2.map (retext i d s)) from rfl, this]
      cases AMap.get ix.data found with
      | none => rfl
      | some l => simp [Function.comp_def]
    · rfl

/-- C122 (search): every search finds the same products with the same confidences as before the edit, whatever the new texts are:
the edited product is found by the words of its old title, and not by those of its new one. -/
theorem C122_search {t t' o lower parse n input ix cl ix' cl'} (hn : 1 ≤ n) (hn2 : n ≤ 764)
    (h : buildAll t o lower parse n input = .ok (ix, cl)) (hl : deserializeAll t' n (serializeAll o ix cl) = .ok (ix', cl'))
    (hf : Fits t' (serializeAll o ix cl).length) {i : Nat} {p : Product} (hp : ix.container.products[i]? = some p) :
    ∃ pre post : Bytes, serializeAll o ix cl = pre ++ productBytes p.description p.title p.id p.vendor.id ++ post ∧
      ∀ (desc title : Str), Fits t' (pre ++ productBytes desc title p.id p.vendor.id ++ post).length → ∀ (rest : Bytes),
        ∃ ix₂ cl₂, deserializeAll t' n (pre ++ productBytes desc title p.id p.vendor.id ++ post ++ rest) = .ok (ix₂, cl₂) ∧
          ∀ (o₁ o₂ : HashOrd) (query : List Char), ∃ r r', ix'.search o₁ n query = .ok r ∧ ix₂.search o₂ n query = .ok r' ∧
            (r'.map fun x => (x.1.sid, x.2)).Perm (r.map fun x => (x.1.sid, x.2)) := by
  have hix := gramWf_of_built hn h
  have hcl := classicWf_of_built h
  have hl' := deserializeAll_fit o hix hcl hf []
  rw [List.append_nil, hl] at hl'
  cases hl'
  obtain ⟨pre, post, e1, e2⟩ := load_edited (t' := t') (o := o) hix hcl hp
  refine ⟨pre, post, e1, fun d s hf' rest => ⟨_, _, e2 d s hf' rest, fun o₁ o₂ query =>
    ⟨_, _, search_eq o₁ _ hn hn2 query, search_eq o₂ _ hn hn2 query, ?_⟩⟩⟩
  rw [hitsOf_edit, rank_map_ids _ (retext_id i _ s)]
  refine ((export_perm _ _).map _).trans ?_
  refine List.Perm.trans ?_ ((export_perm o₁ (rank (hitsOf (reloadGram o ix) n query))).map _).symm
  simp only [List.map_map, Function.comp_def, retext_sid]
  exact .refl _

theorem utf8_low {c : Char} (h : c.toNat < 128) : String.utf8EncodeChar c = [UInt8.ofNat c.toNat] := by
  unfold String.utf8EncodeChar
  have : c.val.toNat ≤ 127 := by unfold Char.toNat at h; omega
  simp only [this, if_true]
  rfl

theorem size_low {c : Char} (h : c.toNat < 128) : c.utf8Size = 1 := by
  rw [← String.length_utf8EncodeChar, utf8_low h]; rfl

theorem productBytes_low (desc a b id : Str) (vendor : Nat) {c : Char} (h : c.toNat < 128) :
    productBytes desc (a ++ c :: b) id vendor = serStrWithLimit desc 100 ++ (serUsize (byteLen a + 1 + byteLen b) ++ utf8 a) ++
      UInt8.ofNat c.toNat :: (utf8 b ++ serStr id ++ serUsize vendor) := by
  have h1 : byteLen (a ++ c :: b) = byteLen a + 1 + byteLen b := by
    simp only [byteLen, List.map_append, List.map_cons, List.sum_append, List.sum_cons, size_low h]; omega
  have h2 : utf8 (a ++ c :: b) = utf8 a ++ UInt8.ofNat c.toNat :: utf8 b := by
    simp only [utf8, List.flatMap_append, List.flatMap_cons, utf8_low h]; rfl
  simp only [productBytes, serStr, h1, h2, List.append_assoc, List.cons_append]

/-- C122 (one byte): wherever a title has an ASCII character there is one byte in the file that can be changed to any other ASCII
character and the damage is not noticed: the file loads, this product has that character in its title, and nothing else is different. -/
theorem C122_byte {t t' o lower parse n input ix cl ix' cl'} (hn : 1 ≤ n) (h : buildAll t o lower parse n input = .ok (ix, cl))
    (hl : deserializeAll t' n (serializeAll o ix cl) = .ok (ix', cl')) (hf : Fits t' (serializeAll o ix cl).length) {i : Nat} {p : Product}
    (hp : ix.container.products[i]? = some p) {a b : Str} {c : Char} (ht : p.title = a ++ c :: b) (hc : c.toNat < 128) :
    ∃ k, (serializeAll o ix cl)[k]? = some (UInt8.ofNat c.toNat) ∧ ∀ (c' : Char), c'.toNat < 128 →
      ∃ r, deserializeAll t' n ((serializeAll o ix cl).set k (UInt8.ofNat c'.toNat)) = .ok r ∧
        Patched i { p with description := limitStringLen p.description 100, title := a ++ c' :: b } (ix', cl') r := by
  obtain ⟨pre, post, e1, e2⟩ := C122 hn h hl hf hp
  rw [ht, productBytes_low _ _ _ _ _ hc] at e1
  generalize hA : serStrWithLimit p.description 100 ++ (serUsize (byteLen a + 1 + byteLen b) ++ utf8 a) = A at e1
  generalize hB : utf8 b ++ serStr p.id ++ serUsize p.vendor.id = B at e1
  have e3 : serializeAll o ix cl = (pre ++ A) ++ UInt8.ofNat c.toNat :: (B ++ post) := by
    rw [e1]; simp only [List.append_assoc, List.cons_append]
  refine ⟨(pre ++ A).length, ?_, fun c' hc' => ?_⟩
  · rw [e3, List.getElem?_append_right (Nat.le_refl _), Nat.sub_self]; rfl
  · have e4 : (serializeAll o ix cl).set (pre ++ A).length (UInt8.ofNat c'.toNat) =
        pre ++ productBytes p.description (a ++ c' :: b) p.id p.vendor.id ++ post := by
      rw [e3, List.set_append_right _ _ (Nat.le_refl _), Nat.sub_self, productBytes_low _ _ _ _ _ hc', hA, hB]
      simp only [List.set_cons_zero, List.append_assoc, List.cons_append]
    have hfit : Fits t' (pre ++ productBytes p.description (a ++ c' :: b) p.id p.vendor.id ++ post).length := by
      rw [← e4, List.length_set]; exact hf
    have := e2 p.description (a ++ c' :: b) hfit []
    rw [List.append_nil, ← e4] at this
    exact this

/-- The claim that a byte changed in a written file is noticed. -/
def C122_statement : Prop := ∀ (t : Target) (o : HashOrd) (lower : Char → List Char) (parse : Str → Option F32) (n : Nat) (input : List RawProduct)
  (ix : GramIndex Char) (cl : Classic), 1 ≤ n → buildAll t o lower parse n input = .ok (ix, cl) →
  Fits t (serializeAll o ix cl).length → ∀ (k : Nat) (v : UInt8), (serializeAll o ix cl)[k]? ≠ some v → k < (serializeAll o ix cl).length →
    ∀ r, deserializeAll t n ((serializeAll o ix cl).set k v) ≠ .ok r

theorem C122_false_of {t o lower parse n input ix cl} (hn : 1 ≤ n) (h : buildAll t o lower parse n input = .ok (ix, cl))
    (hf : Fits t (serializeAll o ix cl).length) {i : Nat} {p : Product} (hp : ix.container.products[i]? = some p) {a b : Str} {c : Char}
    (ht : p.title = a ++ c :: b) (hc : c.toNat < 128) : ¬ C122_statement := by
  intro H
  have hl := deserializeAll_fit o (gramWf_of_built hn h) (classicWf_of_built h) hf []
  rw [List.append_nil] at hl
  obtain ⟨k, hk, hall⟩ := C122_byte hn h hl hf hp ht hc
  have hlt : k < (serializeAll o ix cl).length := (List.getElem?_eq_some_iff.1 hk).1
  have key : ∀ c' : Char, c'.toNat < 128 → UInt8.ofNat c.toNat ≠ UInt8.ofNat c'.toNat → False := by
    intro c' hc' hne
    obtain ⟨r, hr, _⟩ := hall c' hc'
    exact H t o lower parse n input ix cl hn h hf k _ (by rw [hk]; intro e; exact hne (Option.some.inj e)) hlt r hr
  by_cases hx : UInt8.ofNat c.toNat = UInt8.ofNat 'x'.toNat
  · exact key 'y' (by decide) (by rw [hx]; decide)
  · exact key 'x' (by decide) hx

theorem Shop.first_title : (ix.container.products[0]?).map (·.title) = some ['b'] := by decide +kernel

theorem Shop.firstStored : ∃ p : Product, ix.container.products[0]? = some p ∧ p.title = ['b'] := by
  obtain ⟨p, h1, h2⟩ := Option.map_eq_some_iff.1 first_title
  exact ⟨p, h1, h2⟩

/-- It is not: in the file of the shop the one letter of the first title can be changed. -/
theorem C122_false : ¬ C122_statement := by
  obtain ⟨p, h1, h2⟩ := Shop.firstStored
  exact C122_false_of (by decide) Shop.build Shop.fits h1 (a := []) (b := []) (c := 'b') h2 (by decide)

end Idx
