import Verif.Lemmas.Arena
import Verif.Props.Extent
/-! # The loaders mirror the decoders -/
namespace Idx

theorem De.bind_assoc (d : De α) (f : α → De β) (g : β → De γ) : (d >>= f) >>= g = d >>= fun a => f a >>= g := by
  funext input
  rw [De.bind_apply, De.bind_apply, De.bind_apply]
  cases d input <;> rfl

/-- What a decoder without memory gives on both sides. -/
theorem Sim.same {m : Memory} (d : De α) : Sim m (Ld.of d) d fun m' b a => m' = m ∧ b = a :=
  Sim.of ((DSim.refl d).mono fun _ _ h => ⟨rfl, h⟩)

theorem Sim.mapRight {m : Memory} {l : Ld β} {d : De α} {g : α → γ} {S : Memory → β → γ → Prop}
    (h : Sim m l d fun m' b a => S m' b (g a)) : Sim m l (d >>= fun a => Pure.pure (g a)) S := by
  intro hwf input
  have h1 := h hwf input
  refine ⟨h1.1, h1.2.1, ?_⟩
  have h2 := h1.2.2
  rw [De.bind_apply]
  revert h2
  cases (l m input).2 <;> cases d input <;> simp

/-! ## Allocation -/

theorem Memory.le_alloc (m : Memory) (c : NodeCell) : m.Le { m with nodes := m.nodes ++ [c] } :=
  ⟨List.prefix_append _ _, fun _ b h => ⟨b, h, Boxed.Le.refl b⟩⟩

theorem Memory.Wf.alloc {m : Memory} (h : m.Wf) {c : NodeCell} (hk : ∀ k ∈ c.byOcc, k < m.nodes.length)
    (hi : c.items = AMap.collect (c.byOcc.map fun k => (m.itemAt k, k))) :
    ({ m with nodes := m.nodes ++ [c] } : Memory).Wf := by
  have hle := m.le_alloc c
  intro a x hx
  have hcongr : ∀ l : List Nat, (∀ k ∈ l, k < m.nodes.length) →
      (l.map fun k => (({ m with nodes := m.nodes ++ [c] } : Memory).itemAt k, k)) = l.map fun k => (m.itemAt k, k) := by
    intro l hl
    refine List.map_congr_left fun k hk => ?_
    rw [Memory.itemAt_mono hle (hl k hk)]
  have hx : (m.nodes ++ [c])[a]? = some x := hx
  by_cases ha : a < m.nodes.length
  · rw [List.getElem?_append_left ha] at hx
    obtain ⟨h1, h2⟩ := h a x hx
    refine ⟨h1, ?_⟩
    rw [hcongr _ fun k hk => Nat.lt_trans (h1 k hk) ha]; exact h2
  · have ha2 : a = m.nodes.length := by
      have := (List.getElem?_eq_some_iff.1 hx).1
      simp only [List.length_append, List.length_cons, List.length_nil] at this
      omega
    subst ha2
    rw [List.getElem?_append_right (Nat.le_refl _)] at hx
    simp only [Nat.sub_self, List.getElem?_cons_zero, Option.some.injEq] at hx
    subst hx
    refine ⟨hk, ?_⟩
    rw [hcongr _ hk]; exact hi

theorem Memory.le_box (m : Memory) (b : Boxed) : m.Le { m with boxes := m.boxes ++ [b] } := by
  refine ⟨List.prefix_refl _, fun i x hx => ⟨x, ?_, Boxed.Le.refl x⟩⟩
  exact prefix_get (List.prefix_append _ _) hx

theorem superAlloc_eq (b : Boxed) (m : Memory) (input : Bytes) :
    superAlloc b m input = ({ m with boxes := m.boxes ++ [b] }, .ok (input, m.boxes.length)) := by
  unfold superAlloc
  have h : (m.boxes ++ [b])[m.boxes.length]? = some b := by simp
  simp only [h]
  simp

theorem Memory.le_vendor (m : Memory) {box : Nat} {l : List Vendor} (h : m.boxes[box]? = some (.vendors l)) (v : Vendor) :
    m.Le { m with boxes := m.boxes.set box (.vendors (l ++ [v])) } := by
  refine ⟨List.prefix_refl _, fun i x hx => ?_⟩
  by_cases hi : box = i
  · subst hi
    rw [h] at hx
    cases hx
    refine ⟨.vendors (l ++ [v]), ?_, List.prefix_append _ _⟩
    have := (List.getElem?_eq_some_iff.1 h).1
    show (m.boxes.set box _)[box]? = _
    rw [List.getElem?_set]; simp [this]
  · refine ⟨x, ?_, Boxed.Le.refl x⟩
    show (m.boxes.set box _)[i]? = _
    rw [List.getElem?_set]; simp [hi, hx]

/-! ## Nodes -/

theorem itemsFrom_eq {m : Memory} {input : Bytes} : ∀ {l : List Nat} {items : AMap Char Nat},
    (∀ k ∈ l, k < m.nodes.length) → itemsFrom items l m input =
      (m, .ok (input, (l.map fun k => (m.itemAt k, k)).foldl (fun m p => AMap.insert m p.1 p.2) items)) := by
  intro l
  induction l with
  | nil => intro items _; rfl
  | cons a l ih =>
    intro items h
    have ha := h a (by simp)
    have hc : m.nodes[a]? = some m.nodes[a] := List.getElem?_eq_getElem ha
    have hit : m.itemAt a = m.nodes[a].item := by unfold Memory.itemAt; rw [hc]; rfl
    rw [itemsFrom, Ld.bind_apply]
    have hcell : cellOf a m input = (m, .ok (input, m.nodes[a])) := by unfold cellOf; rw [hc]
    rw [hcell]
    show itemsFrom (AMap.insert items m.nodes[a].item a) l m input = _
    rw [ih fun k hk => h k (by simp [hk])]
    simp only [List.map_cons, List.foldl_cons, hit]

theorem node_lt {m : Memory} {a : Nat} {n : GramNode Char} (h : m.node a = some n) : a < m.nodes.length := by
  obtain ⟨c, _, h1, _⟩ := Memory.nodeWithin_iff.1 h
  exact (List.getElem?_eq_some_iff.1 h1).1

theorem ldNode_sim (t : Target) : ∀ (fuel : Nat) (m : Memory), Sim m (ldNode t fuel) (deNode t fuel) fun m' a n =>
    m'.node a = some n ∧ m'.nodes.length = m.nodes.length + n.nodes := by
  intro fuel
  induction fuel with
  | zero =>
    intro m hwf input
    exact ⟨Memory.Le.refl m, hwf, trivial⟩
  | succ fuel ih =>
    intro m
    unfold ldNode deNode
    refine (Sim.same deChar).bind ?_
    rintro _ item _ _ _ ⟨rfl, rfl⟩
    refine (Sim.same deF32).bind ?_
    rintro m weight _ _ _ ⟨rfl, rfl⟩
    rw [deVec, De.bind_assoc]
    refine (Sim.same (deLen t "vec")).bind ?_
    rintro m len _ _ _ ⟨rfl, rfl⟩
    refine (Sim.times (read := Memory.node) (size := GramNode.nodes) (fun _ _ _ _ h => Memory.node_mono h) ih len m).bind ?_
    rintro m1 byOcc kids hle _ ⟨h1, h2⟩
    have hk : ∀ k ∈ byOcc, k < m1.nodes.length := fun k hk => by
      obtain ⟨n, _, hn⟩ := mapM_some_mem h1 k hk
      exact node_lt hn
    refine Sim.step (fun m' items => m' = m1 ∧ items = AMap.collect (byOcc.map fun k => (m1.itemAt k, k))) ?_ ?_
    · intro hwf input
      exact ⟨m1, _, itemsFrom_eq hk, Memory.Le.refl _, hwf, rfl, rfl⟩
    · rintro m' items _ _ ⟨rfl, rfl⟩ hwf input
      refine ⟨Memory.le_alloc _ _, hwf.alloc hk rfl, rfl, ?_, ?_⟩
      · show Memory.nodeWithin _ (m'.nodes.length + 1) m'.nodes.length = _
        refine Memory.nodeWithin_iff.2
          ⟨{ item, weight, byOcc, items := AMap.collect (byOcc.map fun k => (m'.itemAt k, k)) }, kids, ?_, ?_, rfl⟩
        · simp [allocNode]
        · refine mapM_some_mono (fun k hkm n hn => ?_) h1
          have := hk k hkm
          exact Memory.nodeWithin_mono (Memory.le_alloc _ _) (by omega) hn
      · show (m'.nodes ++ [_]).length = _
        rw [GramNode.nodes_mk, List.length_append, h2]
        simp only [List.length_cons, List.length_nil]; omega

theorem ldNodeTop_sim (t : Target) (m : Memory) : Sim m (ldNodeTop t) (deNodeTop t) fun m' a n =>
    m'.node a = some n ∧ m'.nodes.length = m.nodes.length + n.nodes :=
  fun hwf input => ldNode_sim t (input.length + 1) m hwf input

/-- Spec: the trees listed in a file, in order, before a repeated key replaces an earlier one. -/
def deRootList (t : Target) : De (List (Char × GramNode Char)) := do
  let len ← deLen t "map"
  De.times len (do
    let k ← deChar
    let v ← deNodeTop t
    pure (k, v))

theorem ldRoots_sim (t : Target) (m : Memory) : Sim m (ldRoots t) (deRootList t) fun m' bs as =>
    readValues m'.node bs = some as ∧ m'.nodes.length = m.nodes.length + (as.map fun e => e.2.nodes).sum := by
  unfold ldRoots deRootList
  refine (Sim.same (deLen t "map")).bind ?_
  rintro m len _ _ _ ⟨rfl, rfl⟩
  refine Sim.times (read := fun (m : Memory) (e : Char × Nat) => (m.node e.2).map fun v => (e.1, v))
    (size := fun e : Char × GramNode Char => e.2.nodes) ?_ ?_ len m
  · intro m m' b a hle h
    obtain ⟨n, h1, h2⟩ := Option.map_eq_some_iff.1 h
    rw [Memory.node_mono hle h1, ← h2]; rfl
  · intro m
    refine (Sim.same deChar).bind ?_
    rintro m k _ _ _ ⟨rfl, rfl⟩
    refine (ldNodeTop_sim t m).bind ?_
    rintro m' a n _ _ ⟨h1, h2⟩
    exact Sim.pure ⟨by simp [h1], h2⟩

/-! ## Vendors and products -/

/-- References to the first `n` vendors of an arena. -/
def vendorRefs (box n : Nat) : List VendorRef := (List.range n).map fun i => ⟨box, i⟩

/-- The entries of the table of vendors, by reference. -/
def vendorEntries (box : Nat) (l : List Vendor) : List (Str × VendorRef) := l.mapIdx fun i v => (v.name, ⟨box, i⟩)

/-- `VendorManager::deserialize_arena` on the way: the vendors so far are in the arena. -/
structure VendorsAt (m : Memory) (box : Nat) (l : List Vendor) (r : AMap Str VendorRef × List VendorRef) : Prop where
  arena : m.boxes[box]? = some (.vendors l)
  byId : r.2 = vendorRefs box l.length
  tags : r.1 = AMap.collect (vendorEntries box l)

theorem mapIdx_snoc (f : Nat → α → β) (l : List α) (a : α) : (l ++ [a]).mapIdx f = l.mapIdx f ++ [f l.length a] := by
  simp [List.mapIdx_append]

theorem ldVendorsLoop_sim (t : Target) (box k : Nat) : ∀ (len id : Nat) (m : Memory) (l : List Vendor)
    (tags : AMap Str VendorRef) (byId : List VendorRef), VendorsAt m box l (tags, byId) → m.nodes.length = k →
    Sim m (ldVendorsLoop t box len id tags byId)
      (De.timesFrom len id (fun id => do let name ← deStr t; pure ({ name, id } : Vendor)))
      fun m' r l' => VendorsAt m' box (l ++ l') r ∧ m'.nodes.length = k := by
  intro len
  induction len with
  | zero =>
    intro id m l tags byId h hk
    exact Sim.pure ⟨by simpa using h, hk⟩
  | succ len ih =>
    intro id m l tags byId h hk
    unfold ldVendorsLoop De.timesFrom
    rw [De.bind_assoc]
    refine (Sim.same (deStr t)).bind ?_
    rintro m name _ _ _ ⟨rfl, rfl⟩
    have hbox := (List.getElem?_eq_some_iff.1 h.arena).1
    refine Sim.step (fun m' tag => VendorsAt m' box (l ++ [{ name, id }]) (AMap.insert tags name tag, byId ++ [tag]) ∧
      m'.nodes.length = k) ?_ ?_
    · intro hwf input
      refine ⟨_, ⟨box, l.length⟩, by unfold vendorAlloc; rw [h.arena], m.le_vendor h.arena _, hwf, ⟨?_, ?_, ?_⟩, hk⟩
      · simp [hbox]
      · have := h.byId
        simp only at this ⊢
        rw [this]
        simp [vendorRefs, List.range_succ]
      · have := h.tags
        simp only at this ⊢
        rw [this, vendorEntries, vendorEntries, mapIdx_snoc, AMap.collect, AMap.collect, List.foldl_append]
        rfl
    · rintro m1 tag _ _ ⟨h1, hk1⟩
      show Sim m1 _ (De.timesFrom len (id + 1) (fun id => do let name ← deStr t; pure ({ name, id } : Vendor)) >>=
        fun as => Pure.pure ({ name, id } :: as)) _
      refine Sim.mapRight ((ih (id + 1) m1 _ _ _ h1 hk1).mono fun m' r l' _ h2 => ?_)
      rw [show l ++ { name, id } :: l' = l ++ [{ name, id }] ++ l' by simp]
      exact h2

theorem snoc_induct {motive : List α → Prop} (nil : motive []) (snoc : ∀ l a, motive l → motive (l ++ [a])) : ∀ l, motive l := by
  intro l
  rw [← l.reverse_reverse]
  induction l.reverse with
  | nil => exact nil
  | cons a l ih => rw [List.reverse_cons]; exact snoc _ _ ih

theorem VendorsAt.read {m : Memory} {box : Nat} {l : List Vendor} {r : AMap Str VendorRef × List VendorRef}
    (h : VendorsAt m box l r) : readValues m.vendor r.1 = some (AMap.collect (l.map fun v => (v.name, v))) ∧
      r.2.mapM m.vendor = some l := by
  have hv : ∀ i : Nat, m.vendor ⟨box, i⟩ = l[i]? := by intro i; unfold Memory.vendor; rw [h.arena]
  have key : ∀ (pre suf : List Vendor), l = pre ++ suf →
      (vendorEntries box pre).mapM (fun e => (m.vendor e.2).map fun v => (e.1, v)) = some (pre.map fun v => (v.name, v)) ∧
      (vendorRefs box pre.length).mapM m.vendor = some pre := by
    refine snoc_induct ?_ ?_
    · intro _ _; exact ⟨mapM_some_nil.2 rfl, mapM_some_nil.2 rfl⟩
    · intro pre v ih suf e
      obtain ⟨h1, h2⟩ := ih (v :: suf) (by simpa using e)
      have hat : m.vendor ⟨box, pre.length⟩ = some v := by rw [hv, e]; simp
      constructor
      · rw [vendorEntries, mapIdx_snoc]
        refine mapM_some_append.2 ⟨_, [(v.name, v)], h1, ?_, by simp⟩
        exact mapM_some_cons.2 ⟨(v.name, v), [], by simp [hat], mapM_some_nil.2 rfl, rfl⟩
      · have : vendorRefs box (pre ++ [v]).length = vendorRefs box pre.length ++ [⟨box, pre.length⟩] := by
          simp [vendorRefs, List.range_succ]
        rw [this]
        exact mapM_some_append.2 ⟨_, [v], h2, mapM_some_cons.2 ⟨v, [], hat, mapM_some_nil.2 rfl, rfl⟩, rfl⟩
  obtain ⟨h1, h2⟩ := key l [] (by simp)
  rw [h.tags, h.byId]
  exact ⟨readValues_collect h1, h2⟩

theorem ldVendors_sim (t : Target) (m : Memory) : Sim m (ldVendors t) (deVendors t) fun m' r vm =>
    readValues m'.vendor r.1 = some vm.tags ∧ r.2.mapM m'.vendor = some vm.byId ∧ m'.nodes.length = m.nodes.length := by
  unfold ldVendors deVendors
  refine Sim.step (fun m' box => VendorsAt m' box [] ([], []) ∧ m'.nodes.length = m.nodes.length) ?_ ?_
  · intro hwf input
    exact ⟨_, _, superAlloc_eq _ _ _, m.le_box _, hwf, ⟨by simp, rfl, rfl⟩, rfl⟩
  · rintro m1 box _ _ ⟨h1, h2⟩
    refine (Sim.same (deLen t "vendors")).bind ?_
    rintro m1 len _ _ _ ⟨rfl, rfl⟩
    refine Sim.mapRight ((ldVendorsLoop_sim t box m.nodes.length len 0 m1 [] [] [] h1 h2).mono fun m' r l _ h => ?_)
    obtain ⟨h3, h4⟩ := h.1.read
    exact ⟨h3, h4, h.2⟩

theorem deProductCell_sim {t : Target} {m : Memory} {byId : List VendorRef} {vm : VendorManager}
    (h : byId.mapM m.vendor = some vm.byId) (sid : Nat) :
    DSim (deProductCell t sid byId) (deProduct t sid vm) fun c p => m.cellProduct c = some p := by
  unfold deProductCell deProduct
  refine (DSim.refl _).bind ?_
  rintro description _ rfl
  refine (DSim.refl _).bind ?_
  rintro title _ rfl
  refine (DSim.refl _).bind ?_
  rintro id _ rfl
  refine (DSim.refl _).bind ?_
  rintro vendorId _ rfl
  have hg := mapM_some_get h vendorId
  refine DSim.bind (R := fun r v => m.vendor r = some v) (DSim.ofOption ?_) ?_
  · cases hb : byId[vendorId]? with
    | none =>
      rw [hb] at hg
      rw [← hg]; trivial
    | some r =>
      rw [hb] at hg
      simp only [Option.bind_some] at hg
      obtain ⟨v, _, hv⟩ := mapM_some_mem h r (List.mem_of_getElem? hb)
      rw [← hg, hv]
      exact hv
  · intro r v hr
    refine DSim.pure ?_
    unfold Memory.cellProduct
    rw [hr]; rfl

theorem ldContainer_sim (t : Target) (m : Memory) : Sim m (ldContainer t) (deContainer t) fun m' c k =>
    m'.cellContainer c = some k ∧ m'.nodes.length = m.nodes.length := by
  unfold ldContainer deContainer
  refine (ldVendors_sim t m).bind ?_
  rintro m1 ⟨tags, byId⟩ vm _ _ ⟨h1, h2, h3⟩
  refine (Sim.same (deUsize t)).bind ?_
  rintro m1 count _ _ _ ⟨rfl, rfl⟩
  refine Sim.bind (R := fun m' cs ps => m' = m1 ∧ cs.mapM m1.cellProduct = some ps) (Sim.of ?_) ?_
  · exact (DSim.timesFrom (fun i => deProductCell_sim h2 i) count 0).mono fun _ _ h => ⟨rfl, h⟩
  rintro m1 products ps _ _ ⟨rfl, h4⟩
  refine (Sim.same (deFeatureSet t)).bind ?_
  rintro m1 extra _ _ _ ⟨rfl, rfl⟩
  exact Sim.pure ⟨Memory.cellContainer_iff.2 ⟨h4, h1, h2, rfl⟩, h3⟩

/-! ## Indexes -/

theorem product_at {m : Memory} {box : Nat} {k : Container} (h : m.container box = some k) (i : Nat) :
    m.product ⟨box, i⟩ = k.products[i]? := by
  obtain ⟨c, h1, h2⟩ := Memory.container_iff.1 h
  unfold Memory.product
  simp only [h1]
  exact mapM_some_get (Memory.cellContainer_iff.1 h2).1 i

theorem container_count {m : Memory} {box : Nat} {k : Container} {c : ContainerCell} (h : m.container box = some k)
    (hc : m.boxes[box]? = some (.container c)) : c.products.length = k.products.length := by
  obtain ⟨c', h1, h2⟩ := Memory.container_iff.1 h
  rw [hc] at h1
  cases h1
  exact (mapM_some_length (Memory.cellContainer_iff.1 h2).1).symm

theorem lookupRefs_sim {m : Memory} {box : Nat} {k : Container} (h : m.container box = some k) : ∀ ids : List Nat,
    match lookupRefs box k.products.length ids, lookupAll k.products ids with
    | some rs, some ps => rs.mapM m.product = some ps
    | none, none => True
    | _, _ => False := by
  intro ids
  induction ids with
  | nil => exact mapM_some_nil.2 rfl
  | cons id ids ih =>
    unfold lookupRefs lookupAll
    by_cases hid : id < k.products.length
    · rw [if_pos hid, List.getElem?_eq_getElem hid]
      revert ih
      cases lookupRefs box k.products.length ids with
      | none => cases lookupAll k.products ids with
        | none => exact fun _ => trivial
        | some ps => exact fun ih => ih.elim
      | some rs => cases lookupAll k.products ids with
        | none => exact fun ih => ih.elim
        | some ps =>
          intro ih
          refine mapM_some_cons.2 ⟨_, _, ?_, ih, rfl⟩
          rw [product_at h, List.getElem?_eq_getElem hid]
    · rw [if_neg hid, List.getElem?_eq_none (by omega)]
      trivial

theorem deRefSeq_sim {t : Target} {m : Memory} {box : Nat} {k : Container} (h : m.container box = some k) :
    DSim (deRefSeq t box k.products.length) (deProductSeq t k.products) fun r p =>
      r.1.mapM m.product = some p.1 ∧ r.2 = p.2 := by
  unfold deRefSeq deProductSeq
  refine (DSim.refl _).bind ?_
  rintro ids _ rfl
  refine DSim.bind (R := fun rs ps => rs.mapM m.product = some ps) (DSim.ofOption ?_) ?_
  · have := lookupRefs_sim h ids
    revert this
    cases lookupRefs box k.products.length ids <;> cases lookupAll k.products ids <;> exact id
  intro rs ps hr
  exact DSim.pure ⟨hr, rfl⟩

theorem deRefPosting_sim {t : Target} {n : Nat} {m : Memory} {box : Nat} {k : Container} (h : m.container box = some k) :
    DSim (deRefPosting t n box k.products.length) (dePosting t n k) fun e p =>
      ((fun l : List ProductRef => l.mapM m.product) e.2).map (fun v => (e.1, v)) = some p := by
  unfold deRefPosting dePosting
  refine (DSim.refl _).bind ?_
  rintro gram _ rfl
  refine (deRefSeq_sim h).bind ?_
  rintro r p ⟨h1, _⟩
  refine DSim.pure ?_
  simp only [h1]; rfl

/-- Spec: `deGramIndex` that also tells which trees the file lists. -/
def deListed (t : Target) (n : Nat) : De (List (Char × GramNode Char) × GramIndex Char) := do
  let container ← deContainer t
  let roots ← deRootList t
  let len ← deLen t "data"
  let entries ← De.times len (dePosting t n container)
  pure (roots, { container, roots := AMap.collect roots, data := AMap.collect entries })

theorem deGramIndex_listed (t : Target) (n : Nat) : deGramIndex t n = deListed t n >>= fun r => Pure.pure r.2 := by
  unfold deGramIndex deListed deMap deRootList
  simp only [De.bind_assoc]
  rfl

theorem ldGramIndex_sim (t : Target) (n : Nat) (m : Memory) : Sim m (ldGramIndex t n) (deListed t n) fun m' r p =>
    m'.gramIndex r = some p.2 ∧ m'.nodes.length = m.nodes.length + (p.1.map fun e => e.2.nodes).sum := by
  unfold ldGramIndex deListed
  refine (ldContainer_sim t m).bind ?_
  rintro m1 cell k _ _ ⟨h1, h2⟩
  refine Sim.step (fun m' box => m'.boxes[box]? = some (.container cell) ∧ m'.container box = some k ∧
    m'.nodes.length = m.nodes.length) ?_ ?_
  · intro hwf input
    refine ⟨_, _, superAlloc_eq _ _ _, m1.le_box _, hwf, by simp, ?_, h2⟩
    exact Memory.container_iff.2 ⟨cell, by simp, Memory.cellContainer_mono (m1.le_box _) h1⟩
  rintro m2 box _ _ ⟨h3, h4, h5⟩
  refine (ldRoots_sim t m2).bind ?_
  rintro m3 roots listed hle _ ⟨h6, h7⟩
  refine (Sim.same (deLen t "data")).bind ?_
  rintro m3 len _ _ _ ⟨rfl, rfl⟩
  have h8 := Memory.container_mono hle h4
  have h9 := Memory.box_container_mono hle h3
  refine Sim.step (fun m' c => m' = m3 ∧ c = cell) ?_ ?_
  · intro hwf input
    exact ⟨m3, cell, by unfold containerOf; rw [h9], Memory.Le.refl _, hwf, rfl, rfl⟩
  rintro m3 c _ _ ⟨rfl, rfl⟩
  rw [container_count h8 h9]
  refine Sim.bind (R := fun m' es ps => m' = m3 ∧ readValues (fun l : List ProductRef => l.mapM m3.product) es = some ps) (Sim.of ?_) ?_
  · exact (DSim.times (deRefPosting_sim h8) len).mono fun _ _ h => ⟨rfl, h⟩
  rintro m3 es ps _ _ ⟨rfl, h10⟩
  refine Sim.pure ⟨Memory.gramIndex_iff.2 ⟨h8, readValues_collect h6, readValues_collect h10⟩, ?_⟩
  rw [h7, h5]

theorem deOptionRef_sim {t : Target} {m : Memory} {box : Nat} {k : Container} (h : m.container box = some k) (sid : Nat) :
    DSim (deOptionRef t box k.products.length sid) (deCatOption t k.products sid) fun r x => m.option r = some x := by
  unfold deOptionRef deCatOption
  refine (DSim.refl _).bind ?_
  rintro name _ rfl
  refine (deRefSeq_sim h).bind ?_
  rintro r p ⟨h1, h2⟩
  refine DSim.pure ?_
  unfold Memory.option
  rw [h1, h2]; rfl

theorem deCategoryRef_sim {t : Target} {m : Memory} {box : Nat} {k : Container} (h : m.container box = some k) (next : Nat) :
    DSim (deCategoryRef t box k.products.length next) (deCategory t k.products next) fun r x => m.category r = some x := by
  unfold deCategoryRef deCategory
  refine (DSim.refl _).bind ?_
  rintro exclusive _ rfl
  refine (DSim.refl _).bind ?_
  rintro name _ rfl
  refine (DSim.refl _).bind ?_
  rintro len _ rfl
  refine (DSim.timesFrom (deOptionRef_sim h) len next).bind ?_
  intro os xs h1
  refine DSim.pure ?_
  unfold Memory.category
  rw [h1]; rfl

theorem deCategoryRefs_sim {t : Target} {m : Memory} {box : Nat} {k : Container} (h : m.container box = some k) : ∀ len next,
    DSim (deCategoryRefs t box k.products.length len next) (deCategoriesLoop t k.products len next) fun rs xs =>
      rs.mapM m.category = some xs := by
  intro len
  induction len with
  | zero => intro next; exact DSim.pure (mapM_some_nil.2 rfl)
  | succ len ih =>
    intro next
    unfold deCategoryRefs deCategoriesLoop
    refine (deCategoryRef_sim h next).bind ?_
    intro cat x hx
    have hl : cat.options.length = x.options.length := by
      obtain ⟨os, h1, h2⟩ := Option.map_eq_some_iff.1 hx
      rw [← h2]; exact (mapM_some_length h1).symm
    rw [hl]
    refine (ih _).bind ?_
    intro cs xs hcs
    exact DSim.pure (mapM_some_cons.2 ⟨x, xs, hx, hcs, rfl⟩)

theorem deTagRefs_sim {t : Target} {m : Memory} {box : Nat} {k : Container} (h : m.container box = some k) :
    DSim (deTagRefs t box k.products.length) (deTags t k.products) fun rs xs => rs.mapM m.tag = some xs := by
  unfold deTagRefs deTags
  refine (DSim.refl _).bind ?_
  rintro len _ rfl
  refine DSim.timesFrom (fun id => ?_) len 0
  refine (DSim.refl _).bind ?_
  rintro name _ rfl
  refine (deRefSeq_sim h).bind ?_
  rintro r p ⟨h1, h2⟩
  refine DSim.pure ?_
  unfold Memory.tag
  simp only [h1, h2]; rfl

theorem deClassicRef_sim {t : Target} {m : Memory} {box : Nat} {k : Container} (h : m.container box = some k) :
    DSim (deClassicRef t box k.products.length) (deClassic t k) fun r x => m.classic r = some x := by
  unfold deClassicRef deClassic deCategories
  rw [De.bind_assoc]
  refine (DSim.refl _).bind ?_
  rintro len _ rfl
  refine (deCategoryRefs_sim h len 0).bind ?_
  intro cs xs hcs
  refine (deTagRefs_sim h).bind ?_
  intro ts ys hts
  refine (DSim.refl _).bind ?_
  rintro order _ rfl
  exact DSim.pure (Memory.classic_iff.2 ⟨hcs, hts, rfl⟩)

/-- Spec: both indexes, and which trees the file lists. -/
def deAllListed (t : Target) (n : Nat) : De (List (Char × GramNode Char) × GramIndex Char × Classic) := do
  let r ← deListed t n
  let cl ← deClassic t r.2.container
  pure (r.1, r.2, cl)

theorem deBoth_listed (t : Target) (n : Nat) : deBoth t n = deAllListed t n >>= fun r => Pure.pure r.2 := by
  unfold deBoth deAllListed
  rw [deGramIndex_listed]
  simp only [De.bind_assoc]
  rfl

theorem ldAll_sim (t : Target) (n : Nat) (m : Memory) : Sim m (ldAll t n) (deAllListed t n) fun m' r p =>
    m'.gramIndex r.1 = some p.2.1 ∧ m'.classic r.2 = some p.2.2 ∧
      m'.nodes.length = m.nodes.length + (p.1.map fun e => e.2.nodes).sum := by
  unfold ldAll deAllListed
  refine (ldGramIndex_sim t n m).bind ?_
  rintro m1 ix p _ _ ⟨h1, h2⟩
  have hk := (Memory.gramIndex_iff.1 h1).1
  obtain ⟨cell, hc, _⟩ := Memory.container_iff.1 hk
  refine Sim.step (fun m' c => m' = m1 ∧ c = cell) ?_ ?_
  · intro hwf input
    exact ⟨m1, cell, by unfold containerOf; rw [hc], Memory.Le.refl _, hwf, rfl, rfl⟩
  rintro m1 c _ _ ⟨rfl, rfl⟩
  rw [container_count hk hc]
  refine Sim.bind (R := fun m' r x => m' = m1 ∧ m1.classic r = some x) (Sim.of ?_) ?_
  · exact (deClassicRef_sim hk).mono fun _ _ h => ⟨rfl, h⟩
  rintro m1 r x _ _ ⟨rfl, h3⟩
  exact Sim.pure ⟨h1, h3, h2⟩

end Idx
