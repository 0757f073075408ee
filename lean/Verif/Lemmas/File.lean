import Verif.Lemmas.Vendor
import Verif.Lemmas.Limit
import Verif.Model.Nodes
/-! Write/reload of the whole file, for any well-formed index. The only size hypothesis is that the
file itself has fewer than `min(2^usizeBits, 2^56)` bytes; it bounds every length and id inside. -/
namespace Idx

/-! ## Lengths -/

theorem serU64Loop_pos (k : Nat) (v : UInt64) : 1 ≤ (serU64Loop (k + 1) v).length := by
  simp only [serU64Loop]
  split <;> simp

theorem serUsize_pos (n : Nat) : 1 ≤ (serUsize n).length := serU64Loop_pos 9 _

theorem length_flatMap_ge {ser : α → Bytes} {l : List α} (h : ∀ a ∈ l, 1 ≤ (ser a).length) :
    l.length ≤ (l.flatMap ser).length := by
  induction l with
  | nil => simp
  | cons a l ih =>
    have h1 := h a (by simp)
    have h2 := ih fun b hb => h b (by simp [hb])
    simp only [List.flatMap_cons, List.length_append, List.length_cons]
    omega

theorem length_le_flatMap {ser : α → Bytes} {l : List α} {a : α} (h : a ∈ l) :
    (ser a).length ≤ (l.flatMap ser).length := by
  induction l with
  | nil => simp at h
  | cons b l ih =>
    simp only [List.flatMap_cons, List.length_append]
    rcases List.mem_cons.1 h with rfl | h
    · omega
    · have := ih h; omega

theorem serStr_pos (s : Str) : 1 ≤ (serStr s).length := by
  have := serUsize_pos (byteLen s)
  simp only [serStr, List.length_append]; omega

theorem deStr_rt' {t : Target} {s : Str} (h : Fits t (serStr s).length) : RT (serStr s) (deStr t) s := by
  refine deStr_rt (h.1.mono ?_)
  simp only [serStr, List.length_append, utf8_length]; omega

theorem deVec_fit {t : Target} {ser : α → Bytes} {de : De β} {f : α → β} (l : List α)
    (hf : Fits t (serVec ser l).length) (hpos : ∀ a ∈ l, 1 ≤ (ser a).length)
    (h : ∀ a ∈ l, Fits t (ser a).length → RT (ser a) de (f a)) : RT (serVec ser l) (deVec t de) (l.map f) := by
  have hlen : (serVec ser l).length = (serUsize l.length).length + (l.flatMap ser).length := by
    simp [serVec]
  have h1 := length_flatMap_ge hpos
  refine deVec_rt' l (hf.mono (by omega)) fun a ha => h a ha (hf.mono ?_)
  have := length_le_flatMap (ser := ser) ha
  omega

theorem serVec_pos (ser : α → Bytes) (l : List α) : 1 ≤ (serVec ser l).length := by
  have := serUsize_pos l.length
  simp only [serVec, List.length_append]; omega

theorem deMap_fit [DecidableEq K] {σ : Type} {t : Target} (o : HashOrd) (site : σ) {serK : K → Bytes} {serV : V → Bytes}
    {deK : De K} {deV : De W} {f : V → W} (m : AMap K V) (hm : AMap.Wf m)
    (hf : Fits t (serMap o site serK serV m).length) (hpos : ∀ p ∈ m, 1 ≤ (serK p.1).length)
    (hk : ∀ p ∈ m, Fits t (serK p.1).length → RT (serK p.1) deK p.1)
    (hv : ∀ p ∈ m, Fits t (serV p.2).length → RT (serV p.2) deV (f p.2)) :
    RT (serMap o site serK serV m) (deMap t deK deV) ((o.order site m).map fun p => (p.1, f p.2)) := by
  have hp := o.perm site m
  have hwf : AMap.Wf ((o.order site m).map fun p => (p.1, f p.2)) := by
    have := hm.perm hp
    simpa [AMap.Wf, List.map_map, Function.comp_def] using this
  rw [← AMap.collect_of_wf hwf]
  have hlen : (serMap o site serK serV m).length = (serUsize (o.order site m).length).length +
      ((o.order site m).flatMap fun p => serK p.1 ++ serV p.2).length := by
    simp [serMap, serMapEntries]
  have h1 : (o.order site m).length ≤ ((o.order site m).flatMap fun p => serK p.1 ++ serV p.2).length := by
    apply length_flatMap_ge
    intro p hpm
    have := hpos p (hp.mem_iff.1 hpm)
    simp only [List.length_append]; omega
  have h2 : ∀ p ∈ o.order site m, (serK p.1).length + (serV p.2).length ≤
      (serMap o site serK serV m).length := by
    intro p hpm
    have := length_le_flatMap (ser := fun p : K × V => serK p.1 ++ serV p.2) hpm
    simp only [List.length_append] at this
    omega
  refine serMapEntries_rt _ (hf.mono (by omega)) ?_ ?_
  · intro p hpm
    have := h2 p hpm
    exact hk p (hp.mem_iff.1 hpm) (hf.mono (by omega))
  · intro p hpm
    have := h2 p hpm
    exact hv p (hp.mem_iff.1 hpm) (hf.mono (by omega))

/-! ## Products -/

/-- What a product becomes by writing and reloading: the description is limited. -/
def reloadProduct (p : Product) : Product := { p with description := limitStringLen p.description 100 }

/-- The container is consistent: products know their position and their vendor's entry. -/
structure ContainerWf (c : Container) : Prop where
  vendors : c.vendors.Inv
  sid : ∀ (i : Nat) (p : Product), c.products[i]? = some p → p.sid = i
  vendor : ∀ p ∈ c.products, c.vendors.byId[p.vendor.id]? = some p.vendor
  extra : AMap.Wf c.extra

theorem serProduct_pos (p : Product) : 1 ≤ (serProduct p).length := by
  have := serUsize_pos p.vendor.id
  simp only [serProduct, List.length_append]; omega

theorem serVendor_pos (v : Vendor) : 1 ≤ (serVendor v).length := serStr_pos _

theorem deVendors_fit {t : Target} (o : HashOrd) {m : VendorManager} (h : m.Inv)
    (hf : Fits t (serVendors o m).length) :
    RT (serVendors o m) (deVendors t) m ∧ m.byId.length ≤ (serVendors o m).length := by
  rw [serVendors_eq o h] at hf ⊢
  simp only [List.length_append] at hf ⊢
  have h1 := length_flatMap_ge (l := m.byId) (ser := serVendor) fun a _ => serVendor_pos a
  refine ⟨?_, by omega⟩
  rw [← serVendors_eq o h]
  refine deVendors_rt o h (hf.mono (by omega)) fun v hv => hf.1.mono ?_
  have h2 := length_le_flatMap (ser := serVendor) hv
  have h3 : byteLen v.name ≤ (serVendor v).length := by
    simp only [serVendor, serStr, List.length_append, utf8_length]; omega
  omega

theorem deProduct_fit {t : Target} (p : Product) (vendors : VendorManager)
    (hv : vendors.byId[p.vendor.id]? = some p.vendor) (hvf : Fits t p.vendor.id)
    (hf : Fits t (serProduct p).length) :
    RT (serProduct p) (deProduct t p.sid vendors) (reloadProduct p) := by
  simp only [serProduct, List.length_append] at hf
  have e : serProduct p = serStrWithLimit p.description 100 ++
      (serStr p.title ++ (serStr p.id ++ (serUsize p.vendor.id ++ ([] ++ [])))) := by
    simp [serProduct, List.append_assoc]
  rw [e]
  refine RT.bind (deStr_rt' (hf.mono ?_)) ?_
  · simp only [serStrWithLimit]; omega
  refine RT.bind (deStr_rt' (hf.mono (by omega))) ?_
  refine RT.bind (deStr_rt' (hf.mono (by omega))) ?_
  refine RT.bind (deUsize_rt hvf.1) ?_
  refine RT.bind (a := p.vendor) ?_ ?_
  · intro rest; simp [hv]
  · exact RT.pure

theorem serFeature_pos (f : Feature) : 1 ≤ (serFeature f).length := by
  cases f <;> simp [serFeature, serU8]

theorem deFeature_fit {t : Target} (f : Feature) (hf : Fits t (serFeature f).length) :
    RT (serFeature f) (deFeature t) f := by
  cases f with
  | string l =>
    simp only [serFeature, List.length_append] at hf
    refine RT.bind (deU8_rt 0) ?_
    simp only [if_true]
    have := deVec_fit (t := t) (ser := serStr) (de := deStr t) (f := id) l (hf.mono (by omega))
      (fun a _ => serStr_pos a) (fun a _ h => deStr_rt' h)
    rw [List.map_id] at this
    exact RT.bind_pure this
  | float l =>
    simp only [serFeature, List.length_append] at hf
    refine RT.bind (deU8_rt 1) ?_
    simp only [show ¬ ((1 : UInt8) = 0) by decide, if_false, if_true]
    have := deVec_fit (t := t) (ser := serF32) (de := deF32) (f := id) l (hf.mono (by omega))
      (fun a _ => by simp [serF32, F32.toBeBytes]) (fun a _ _ => deF32_rt a)
    rw [List.map_id] at this
    exact RT.bind_pure this
  | integer l =>
    simp only [serFeature, List.length_append] at hf
    refine RT.bind (deU8_rt 2) ?_
    simp only [show ¬ ((2 : UInt8) = 0) by decide, show ¬ ((2 : UInt8) = 1) by decide, if_false, if_true]
    have := deVec_fit (t := t) (ser := serU32) (de := deU32) (f := id) l (hf.mono (by omega))
      (fun a _ => serU64Loop_pos 9 _) (fun a _ _ => deU32_rt a)
    rw [List.map_id] at this
    exact RT.bind_pure this

/-- The container after reload. -/
def reloadContainer (o : HashOrd) (c : Container) : Container :=
  { products := c.products.map reloadProduct, vendors := c.vendors, extra := o.order "features" c.extra }

theorem deContainer_fit {t : Target} (o : HashOrd) {c : Container} (h : ContainerWf c)
    (hf : Fits t (serContainer o c).length) :
    RT (serContainer o c) (deContainer t) (reloadContainer o c) := by
  simp only [serContainer, List.length_append] at hf
  obtain ⟨hv1, hv2⟩ := deVendors_fit o h.vendors (t := t) (hf.mono (by omega))
  have e : serContainer o c = serVendors o c.vendors ++ (serUsize c.products.length ++
      (c.products.flatMap serProduct ++ (serFeatureSet o c.extra))) := by
    simp [serContainer, serVec, List.append_assoc]
  rw [e]
  refine RT.bind hv1 ?_
  have hpl := length_flatMap_ge (l := c.products) (ser := serProduct) fun a _ => serProduct_pos a
  have hsv : (serVec serProduct c.products).length =
      (serUsize c.products.length).length + (c.products.flatMap serProduct).length := by simp [serVec]
  refine RT.bind (deUsize_rt (hf.1.mono (by omega))) ?_
  refine RT.bind (a := c.products.map reloadProduct) ?_ ?_
  · refine timesFrom_rt c.products 0 fun j p hp => ?_
    have hs := h.sid j p hp
    have hm := List.mem_of_getElem? hp
    have hvid := (List.getElem?_eq_some_iff.1 (h.vendor p hm)).1
    have := deProduct_fit (t := t) p c.vendors (h.vendor p hm) (hf.mono (by omega)) (hf.mono (by
      have := length_le_flatMap (ser := serProduct) hm
      omega))
    rw [hs] at this
    rwa [Nat.zero_add]
  · refine RT.bind_pure ?_
    have := deMap_fit (t := t) o "features" (serK := serStr) (serV := serFeature) (deK := deStr t)
      (deV := deFeature t) (f := id) c.extra h.extra (hf.mono (by simp only [serFeatureSet]; omega))
      (fun p _ => serStr_pos _) (fun p _ hh => deStr_rt' hh) (fun p _ hh => deFeature_fit _ hh)
    rw [show (o.order "features" c.extra).map (fun p => (p.1, id p.2)) = o.order "features" c.extra by simp] at this
    exact this

/-! ## Id lists -/

/-- A product list as stored by tags, options and postings: products of the container in ascending
position. -/
structure Listed (c : Container) (l : List Product) : Prop where
  mem : ∀ p ∈ l, c.products[p.sid]? = some p
  sorted : (l.map (·.sid)).Pairwise (· ≤ ·)

theorem lookupAll_eq {existing : List Product} {f : Product → Product} (l : List Product)
    (h : ∀ p ∈ l, existing[p.sid]? = some (f p)) : lookupAll existing (l.map (·.sid)) = some (l.map f) := by
  induction l with
  | nil => rfl
  | cons p l ih =>
    simp only [List.map_cons, lookupAll, h p (by simp), ih fun q hq => h q (by simp [hq]), Option.map_some]

theorem serDeltas_length_ge (l : List Nat) : ∀ prev, l.length ≤ (serDeltas prev l).length := by
  induction l with
  | nil => intro _; simp
  | cons a l ih =>
    intro prev
    have h1 := ih (some a)
    simp only [serDeltas, List.length_append, List.length_cons]
    cases prev with
    | none => have := serUsize_pos a; simp only; omega
    | some p => have := serUsize_pos (a - p); simp only; omega

theorem deProductSeq_fit {t : Target} {c : Container} {l : List Product} {existing : List Product}
    (hl : Listed c l) (he : existing = c.products.map reloadProduct) (hc : Fits t c.products.length)
    (hf : Fits t (serProductSeq l).length) :
    RT (serProductSeq l) (deProductSeq t existing) (l.map reloadProduct, l.map (·.sid)) := by
  have hsort : stableSort (fun a b => decide (a ≤ b)) (l.map (·.sid)) = l.map (·.sid) :=
    stableSort_of_sorted (hl.sorted.imp (by simp))
  have e : serProductSeq l = serUsize (l.map (·.sid)).length ++ serDeltas none (l.map (·.sid)) := by
    simp only [serProductSeq, serSeq, hsort]
  rw [e] at hf ⊢
  simp only [List.length_append] at hf
  have h1 := serDeltas_length_ge (l.map (·.sid)) none
  have hseq : RT (serUsize (l.map (·.sid)).length ++ serDeltas none (l.map (·.sid))) (deSeq t) (l.map (·.sid)) := by
    refine RT.bind (deLen_rt (hf.mono (by omega)) _) ?_
    refine deDeltas_rt _ none (by simp) hl.sorted fun x hx => ?_
    obtain ⟨p, hp, rfl⟩ := List.mem_map.1 hx
    exact hc.1.mono (Nat.le_of_lt (List.getElem?_eq_some_iff.1 (hl.mem p hp)).1)
  have hlk : lookupAll existing (l.map (·.sid)) = some (l.map reloadProduct) := by
    apply lookupAll_eq
    intro p hp
    rw [he, List.getElem?_map, hl.mem p hp]; rfl
  refine RT.congr (s := (serUsize (l.map (·.sid)).length ++ serDeltas none (l.map (·.sid))) ++ ([] ++ [])) ?_ (by simp)
  refine RT.bind hseq ?_
  refine RT.bind (a := l.map reloadProduct) ?_ RT.pure
  intro rest
  simp [hlk]

theorem serProductSeq_pos (l : List Product) : 1 ≤ (serProductSeq l).length := by
  simp only [serProductSeq, serSeq, List.length_append]
  have := serUsize_pos (stableSort (fun a b => decide (a ≤ b)) (l.map (·.sid))).length
  omega

/-! ## Tree nodes -/

/-- Number of nested levels of a node, and induction on nodes. -/
def GramNode.depth : GramNode G → Nat
  | .mk _ _ l => 1 + (l.attach.map fun ⟨c, _⟩ => c.depth).foldl Nat.max 0

theorem le_foldl_max (l : List Nat) : ∀ (b : Nat), b ≤ l.foldl Nat.max b ∧ ∀ a ∈ l, a ≤ l.foldl Nat.max b := by
  induction l with
  | nil => intro b; simp
  | cons x l ih =>
    intro b
    obtain ⟨h1, h2⟩ := ih (Nat.max b x)
    refine ⟨Nat.le_trans (Nat.le_max_left b x) h1, fun a ha => ?_⟩
    rcases List.mem_cons.1 ha with rfl | ha
    · exact Nat.le_trans (Nat.le_max_right b a) h1
    · exact h2 a ha

theorem GramNode.depth_child {i : G} {w : F32} {l : List (GramNode G)} {c : GramNode G} (h : c ∈ l) :
    c.depth < (GramNode.mk i w l).depth := by
  rw [GramNode.depth]
  have := (le_foldl_max (l.attach.map fun ⟨c, _⟩ => c.depth) 0).2 c.depth
    (List.mem_map.2 ⟨⟨c, h⟩, List.mem_attach _ _, rfl⟩)
  omega

theorem GramNode.depth_induct {motive : GramNode G → Prop}
    (h : ∀ i w l, (∀ c ∈ l, motive c) → motive (.mk i w l)) : ∀ n, motive n := by
  have : ∀ (d : Nat) (n : GramNode G), n.depth ≤ d → motive n := by
    intro d
    induction d with
    | zero => intro n hn; cases n; rw [GramNode.depth] at hn; omega
    | succ d ih =>
      intro n hn
      cases n with
      | mk i w l =>
        refine h i w l fun c hc => ih c ?_
        have := GramNode.depth_child (i := i) (w := w) hc
        omega
  exact fun n => this n.depth n (Nat.le_refl _)

theorem serNode_mk (i : Char) (w : F32) (l : List (GramNode Char)) :
    serNode (.mk i w l) = serChar i ++ (serF32 w ++ serVec serNode l) := by
  rw [serNode, serVec]
  have : (l.attach.map fun (⟨c, _⟩ : { x // x ∈ l }) => serNode c).flatten = l.flatMap serNode := by
    rw [List.flatMap, ← List.attach_map_subtype_val (l := l), List.map_map]
    simp [Function.comp_def]
  rw [this, List.append_assoc]

theorem serChar_pos (c : Char) : 1 ≤ (serChar c).length := serU64Loop_pos 9 _

theorem serNode_pos (n : GramNode Char) : 1 ≤ (serNode n).length := by
  cases n with
  | mk i w l =>
    rw [serNode_mk]
    have := serChar_pos i
    simp only [List.length_append]
    omega

theorem deNode_fit {t : Target} (n : GramNode Char) : Fits t (serNode n).length → ∀ fuel, n.depth ≤ fuel →
    RT (serNode n) (deNode t fuel) n := by
  refine GramNode.depth_induct (motive := fun n => Fits t (serNode n).length → ∀ fuel, n.depth ≤ fuel →
    RT (serNode n) (deNode t fuel) n) ?_ n
  intro i w l ih hf fuel hd
  cases fuel with
  | zero => rw [GramNode.depth] at hd; omega
  | succ fuel =>
    rw [serNode_mk] at hf ⊢
    simp only [List.length_append] at hf
    refine RT.bind (deChar_rt i) ?_
    refine RT.bind (deF32_rt w) ?_
    refine RT.bind_pure ?_
    have := deVec_fit (t := t) (ser := serNode) (de := deNode t fuel) (f := id) l (hf.mono (by omega))
      (fun a _ => serNode_pos a) (fun a ha h => ih a ha h fuel (by
        have := GramNode.depth_child (i := i) (w := w) ha
        omega))
    rwa [List.map_id] at this

theorem GramNode.depth_le_length (n : GramNode Char) : n.depth ≤ (serNode n).length := by
  refine GramNode.depth_induct (motive := fun n => n.depth ≤ (serNode n).length) ?_ n
  intro i w l ih
  rw [serNode_mk, GramNode.depth]
  have h1 := serChar_pos i
  simp only [List.length_append]
  have h2 : (l.attach.map fun x => x.val.depth).foldl Nat.max 0 ≤ (serVec serNode l).length := by
    have : ∀ (l' : List Nat) (b m : Nat), b ≤ m → (∀ a ∈ l', a ≤ m) → l'.foldl Nat.max b ≤ m := by
      intro l'
      induction l' with
      | nil => intro b m h _; exact h
      | cons x l' ih =>
        intro b m h1 h2
        exact ih _ m (Nat.max_le.2 ⟨h1, h2 x (by simp)⟩) fun a ha => h2 a (by simp [ha])
    refine this _ 0 _ (Nat.zero_le _) ?_
    intro a ha
    obtain ⟨⟨c, hc⟩, _, rfl⟩ := List.mem_map.1 ha
    have h3 := ih c hc
    have h4 := length_le_flatMap (ser := serNode) hc
    simp only [serVec, List.length_append]
    omega
  omega

theorem deNodeTop_fit {t : Target} (n : GramNode Char) (h : Fits t (serNode n).length) :
    RT (serNode n) (deNodeTop t) n := by
  intro rest
  refine deNode_fit n h _ ?_ rest
  have := n.depth_le_length
  simp only [List.length_append]; omega

/-! ## The n-gram index -/

structure GramWf (n : Nat) (ix : GramIndex Char) : Prop where
  container : ContainerWf ix.container
  roots : AMap.Wf ix.roots
  data : AMap.Wf ix.data
  grams : ∀ e ∈ ix.data, e.1.length = n ∧ Listed ix.container e.2

/-- The n-gram index after reload. -/
def reloadGram (o : HashOrd) (ix : GramIndex Char) : GramIndex Char :=
  { container := reloadContainer o ix.container
    roots := o.order "roots" ix.roots
    data := (o.order "data" ix.data).map fun e => (e.1, e.2.map reloadProduct) }

theorem serArray_length (l : List Char) : l.length ≤ (serArray serChar l).length := by
  have := length_flatMap_ge (l := l) (ser := serChar) fun a _ => serU64Loop_pos 9 a.val.toUInt64
  simp only [serArray, List.length_append]; omega

/-- Position of the products in the file: there are at most as many as the file has bytes. -/
theorem products_le (o : HashOrd) (c : Container) : c.products.length ≤ (serContainer o c).length := by
  have := length_flatMap_ge (l := c.products) (ser := serProduct) fun a _ => serProduct_pos a
  simp only [serContainer, serVec, List.length_append]; omega

theorem deGramIndex_fit {t : Target} {n : Nat} (o : HashOrd) {ix : GramIndex Char} (h : GramWf n ix)
    (hf : Fits t (serGramIndex o ix).length) :
    RT (serGramIndex o ix) (deGramIndex t n) (reloadGram o ix) := by
  simp only [serGramIndex, List.length_append] at hf
  have e : serGramIndex o ix = serContainer o ix.container ++ (serMap o "roots" serChar serNode ix.roots ++
      (serUsize ix.data.length ++ (o.order "data" ix.data).flatMap serPosting)) := by
    simp [serGramIndex, List.append_assoc]
  rw [e]
  have hpl := products_le o ix.container
  refine RT.bind (deContainer_fit o h.container (hf.mono (by omega))) ?_
  refine RT.bind (a := o.order "roots" ix.roots) ?_ ?_
  · have := deMap_fit (t := t) o "roots" (serK := serChar) (serV := serNode) (deK := deChar)
      (deV := deNodeTop t) (f := id) ix.roots h.roots (hf.mono (by omega))
      (fun p _ => serU64Loop_pos 9 _) (fun p _ _ => deChar_rt _) (fun p _ hh => deNodeTop_fit _ hh)
    simpa using this
  have hpos : ∀ e : List Char × List Product, 1 ≤ (serPosting e).length := by
    intro e
    have := serProductSeq_pos e.2
    simp only [serPosting, List.length_append]; omega
  have h1 := length_flatMap_ge (l := o.order "data" ix.data) (ser := serPosting) fun a _ => hpos a
  have hperm := o.perm "data" ix.data
  have hlen := hperm.length_eq
  refine RT.bind (deLen_rt (hf.mono (by omega)) _) ?_
  have hwf : AMap.Wf ((o.order "data" ix.data).map fun e => (e.1, e.2.map reloadProduct)) := by
    have := h.data.perm hperm
    simpa [AMap.Wf, List.map_map, Function.comp_def] using this
  have key : RT ((o.order "data" ix.data).flatMap serPosting)
      (De.times ix.data.length (dePosting t n (reloadContainer o ix.container)))
      ((o.order "data" ix.data).map fun e => (e.1, e.2.map reloadProduct)) := by
    rw [← hlen]
    refine times_rt _ fun e he => ?_
    obtain ⟨hn, hl⟩ := h.grams e (hperm.mem_iff.1 he)
    have hle := length_le_flatMap (ser := serPosting) he
    simp only [serPosting, List.length_append] at hle
    have harr := serArray_length e.1
    have ha : RT (serArray serChar e.1) (deArray t n deChar) e.1 := by
      rw [← hn]
      exact deArray_rt e.1 (hf.1.mono (by omega)) fun c _ => deChar_rt c
    refine RT.bind ha ?_
    exact RT.bind_pure (f := fun r : List Product × List Nat => (e.1, r.1))
      (deProductSeq_fit hl rfl (hf.mono (by omega)) (hf.mono (by omega)))
  have := RT.bind_pure (f := fun es => (⟨o.order "roots" ix.roots,
    AMap.collect es, reloadContainer o ix.container⟩ : GramIndex Char)) key
  rw [AMap.collect_of_wf hwf] at this
  exact this

/-! ## Classic indexes -/

structure ClassicWf (c : Container) (cl : Classic) : Prop where
  tags : ∀ t ∈ cl.tags, Listed c t.products
  tagIds : ∀ (i : Nat) (t : Tag), cl.tags[i]? = some t → t.id = i
  options : ∀ cat ∈ cl.categories, ∀ op ∈ cat.options, Listed c op.content
  order : AMap.Wf cl.order
  ranks : ∀ e ∈ cl.order, ∀ r ∈ e.2, r ≤ c.products.length

def reloadTag (t : Tag) : Tag :=
  { t with products := t.products.map reloadProduct, ids := setCollect (t.products.map (·.sid)) }

def reloadOption (sid : Nat) (op : CatOption) : CatOption :=
  { name := op.name, sid, content := op.content.map reloadProduct, ids := setCollect (op.content.map (·.sid)) }

/-- Options are renumbered from `next`. -/
def reloadOptions (next : Nat) : List CatOption → List CatOption
  | [] => []
  | op :: ops => reloadOption next op :: reloadOptions (next + 1) ops

/-- Options are renumbered consecutively, category by category. -/
def reloadCategories : Nat → List Category → List Category
  | _, [] => []
  | next, cat :: cats =>
    { cat with options := reloadOptions next cat.options } ::
      reloadCategories (next + cat.options.length) cats

theorem reloadOptions_length (l : List CatOption) : ∀ next, (reloadOptions next l).length = l.length := by
  induction l with
  | nil => intro _; rfl
  | cons a l ih => intro next; simp [reloadOptions, ih]

def reloadClassic (o : HashOrd) (cl : Classic) : Classic :=
  { categories := reloadCategories 0 cl.categories, tags := cl.tags.map reloadTag
    order := o.order "orders" cl.order }

theorem serTag_pos (t : Tag) : 1 ≤ (serTag t).length := by
  have := serStr_pos t.name
  simp only [serTag, List.length_append]; omega

theorem deTags_fit {t : Target} {c : Container} {tags : List Tag} {existing : List Product}
    (he : existing = c.products.map reloadProduct) (hc : Fits t c.products.length)
    (hl : ∀ t ∈ tags, Listed c t.products) (hid : ∀ (i : Nat) (t : Tag), tags[i]? = some t → t.id = i)
    (hf : Fits t (serTags tags).length) :
    RT (serTags tags) (deTags t existing) (tags.map reloadTag) := by
  simp only [serTags, serVec, List.length_append] at hf
  have h1 := length_flatMap_ge (l := tags) (ser := serTag) fun a _ => serTag_pos a
  refine RT.bind (deLen_rt (hf.mono (by omega)) _) ?_
  refine timesFrom_rt tags 0 fun j tag htag => ?_
  have hm := List.mem_of_getElem? htag
  have hle := length_le_flatMap (ser := serTag) hm
  simp only [serTag, List.length_append] at hle
  refine RT.bind (deStr_rt' (hf.mono (by omega))) ?_
  have := RT.bind_pure (f := fun r : List Product × List Nat =>
    ({ name := tag.name, products := r.1, ids := setCollect r.2, id := 0 + j } : Tag))
    (deProductSeq_fit (t := t) (hl tag hm) he hc (hf.mono (by omega)))
  have e : reloadTag tag = Tag.mk tag.name (tag.products.map reloadProduct)
      (setCollect (tag.products.map (·.sid))) (0 + j) := by
    simp [reloadTag, hid j tag htag]
  rw [e]
  exact this

theorem serCatOption_pos (t : CatOption) : 1 ≤ (serCatOption t).length := by
  have := serStr_pos t.name
  simp only [serCatOption, List.length_append]; omega

theorem deOptions_fit {t : Target} {c : Container} {existing : List Product}
    (he : existing = c.products.map reloadProduct) (hc : Fits t c.products.length) (ops : List CatOption) :
    ∀ (next : Nat), (∀ op ∈ ops, Listed c op.content) → Fits t (ops.flatMap serCatOption).length →
    RT (ops.flatMap serCatOption) (De.timesFrom ops.length next (deCatOption t existing))
      (reloadOptions next ops) := by
  induction ops with
  | nil => intro next _ _; exact RT.pure
  | cons op ops ih =>
    intro next hl hf
    simp only [List.flatMap_cons, List.length_append] at hf
    simp only [List.flatMap_cons, List.length_cons, De.timesFrom]
    refine RT.bind (a := reloadOption next op) ?_ ?_
    · simp only [serCatOption, List.length_append] at hf
      refine RT.bind (deStr_rt' (hf.mono (by omega))) ?_
      exact RT.bind_pure (f := fun r : List Product × List Nat =>
        ({ name := op.name, content := r.1, sid := next, ids := setCollect r.2 } : CatOption))
        (deProductSeq_fit (t := t) (hl op (by simp)) he hc (hf.mono (by omega)))
    · exact RT.bind_pure (ih (next + 1) (fun o ho => hl o (by simp [ho])) (hf.mono (by omega)))

theorem serCategory_pos (t : Category) : 1 ≤ (serCategory t).length := by
  have := serStr_pos t.name
  simp only [serCategory, List.length_append]; omega

theorem deCategoriesLoop_fit {t : Target} {c : Container} {existing : List Product}
    (he : existing = c.products.map reloadProduct) (hc : Fits t c.products.length) (cats : List Category) :
    ∀ (next : Nat), (∀ cat ∈ cats, ∀ op ∈ cat.options, Listed c op.content) →
    Fits t (cats.flatMap serCategory).length →
    RT (cats.flatMap serCategory) (deCategoriesLoop t existing cats.length next) (reloadCategories next cats) := by
  induction cats with
  | nil => intro next _ _; exact RT.pure
  | cons cat cats ih =>
    intro next hl hf
    simp only [List.flatMap_cons, List.length_append] at hf
    simp only [List.flatMap_cons, List.length_cons, deCategoriesLoop]
    refine RT.bind (a := { cat with options := reloadOptions next cat.options }) ?_ ?_
    · simp only [serCategory, List.length_append] at hf
      have h1 := length_flatMap_ge (l := cat.options) (ser := serCatOption) fun a _ => serCatOption_pos a
      have e : serCategory cat = serBool cat.exclusive ++ (serStr cat.name ++ (serUsize cat.options.length ++
          cat.options.flatMap serCatOption)) := by simp [serCategory, List.append_assoc]
      rw [e]
      refine RT.bind (deBool_rt _) ?_
      refine RT.bind (deStr_rt' (hf.mono (by omega))) ?_
      refine RT.bind (deLen_rt (hf.mono (by omega)) _) ?_
      exact RT.bind_pure (deOptions_fit he hc cat.options next (hl cat (by simp)) (hf.mono (by omega)))
    · have := ih (next + cat.options.length) (fun c' hc' => hl c' (by simp [hc'])) (hf.mono (by omega))
      simp only [reloadOptions_length]
      exact RT.bind_pure this

theorem deClassic_fit {t : Target} (o : HashOrd) {c c' : Container} {cl : Classic} (h : ClassicWf c cl)
    (he : c'.products = c.products.map reloadProduct) (hc : Fits t c.products.length)
    (hf : Fits t (serClassic o cl).length) :
    RT (serClassic o cl) (deClassic t c') (reloadClassic o cl) := by
  simp only [serClassic, List.length_append] at hf
  have e : serClassic o cl = serCategories cl.categories ++ (serTags cl.tags ++ serOrders o cl.order) := by
    simp [serClassic, List.append_assoc]
  rw [e]
  refine RT.bind (a := reloadCategories 0 cl.categories) ?_ ?_
  · have h1 := length_flatMap_ge (l := cl.categories) (ser := serCategory) fun a _ => serCategory_pos a
    simp only [serCategories, List.length_append] at hf
    refine RT.bind (deLen_rt (hf.mono (by omega)) _) ?_
    exact deCategoriesLoop_fit he hc cl.categories 0 h.options (hf.mono (by omega))
  refine RT.bind (deTags_fit he hc h.tags h.tagIds (hf.mono (by omega))) ?_
  refine RT.bind_pure ?_
  have := deMap_fit (t := t) o "orders" (serK := serStr) (serV := serVec serUsize) (deK := deStr t)
    (deV := deVec t (deUsize t)) (f := id) cl.order h.order (hf.mono (by simp only [serOrders]; omega))
    (fun p _ => serStr_pos _) (fun p _ hh => deStr_rt' hh) (fun p hp hh => by
      have := deVec_fit (t := t) (ser := serUsize) (de := deUsize t) (f := id) p.2 hh
        (fun a _ => serUsize_pos a) (fun a ha _ => deUsize_rt (hc.1.mono (h.ranks p hp a ha)))
      rwa [List.map_id] at this)
  rw [show (o.order "orders" cl.order).map (fun p => (p.1, id p.2)) = o.order "orders" cl.order by simp] at this
  exact this

/-- The whole file, followed by anything, loads to the reloaded indexes. -/
theorem deserializeAll_fit {t : Target} {n : Nat} (o : HashOrd) {ix : GramIndex Char} {cl : Classic}
    (hix : GramWf n ix) (hcl : ClassicWf ix.container cl) (hf : Fits t (serializeAll o ix cl).length)
    (rest : Bytes) :
    deserializeAll t n (serializeAll o ix cl ++ rest) = .ok (reloadGram o ix, reloadClassic o cl) := by
  simp only [serializeAll, List.length_append] at hf
  have hpl : ix.container.products.length ≤ (serGramIndex o ix).length := by
    have := products_le o ix.container
    simp only [serGramIndex, List.length_append]; omega
  have h1 := deGramIndex_fit o hix (t := t) (hf.mono (by omega)) (serClassic o cl ++ rest)
  have h2 := deClassic_fit (c' := (reloadGram o ix).container) o hcl rfl (hf.mono (by omega))
    (t := t) (hf.mono (by omega)) rest
  simp only [deserializeAll, serializeAll, List.append_assoc]
  rw [h1]
  simp only [Res.bind_ok]
  rw [h2]
  rfl

end Idx
