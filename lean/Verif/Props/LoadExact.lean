import Verif.Props.LoadLeast
import Verif.Props.Reload

/-! Loading a written file takes exactly the steps of what is loaded. -/

namespace Idx

/-- A successful read takes, with `c` steps taken before, exactly the steps of what it returns. -/
def Adds (c : Nat) (steps : α → Nat) (d : DeN α) : Prop := ∀ input rest a k, d input = (.ok (rest, a), k) → c + k = steps a

namespace Adds
variable {α β : Type} {c : Nat}

theorem pure {a : α} {s : α → Nat} (h : c = s a) : Adds c s (Pure.pure a) := by
  intro input rest b k e
  have e : ((.ok (input, a), 0) : Res (Bytes × α) × Nat) = (.ok (rest, b), k) := e
  simp only [Prod.mk.injEq, Res.ok.injEq] at e
  obtain ⟨⟨_, rfl⟩, rfl⟩ := e
  omega

theorem prim {d : De α} : Adds 0 (fun _ => 1) (DeN.prim d) := by
  intro input rest a k e
  simp only [DeN.prim, Prod.mk.injEq] at e
  have := e.2
  dsimp only
  omega

theorem free {d : De α} : Adds 0 (fun _ => 0) (DeN.free d) := by
  intro input rest a k e
  simp only [DeN.free, Prod.mk.injEq] at e
  have := e.2
  dsimp only
  omega

theorem fail {s : α → Nat} : Adds c s (DeN.free De.fail) := fun input rest a k e => by simp [DeN.free] at e

theorem more {d : DeN α} {s s' : α → Nat} (h : Adds 0 s d) (he : ∀ a, s' a = c + s a) : Adds c s' d :=
  fun input rest a k e => by have := h _ _ _ _ e; rw [he]; omega

theorem bind {d : DeN α} {f : α → DeN β} {s' : β → Nat} (s : α → Nat) (h : Adds 0 s d) (k : ∀ a, Adds (c + s a) s' (f a)) :
    Adds c s' (d >>= f) := by
  intro input rest b n e
  have e : DeN.bind d f input = (.ok (rest, b), n) := e
  rw [DeN.bind] at e
  rcases hd : d input with ⟨r, m⟩
  rw [hd] at e
  cases r with
  | none => cases e
  | panic w => cases e
  | ok p =>
    obtain ⟨r, a⟩ := p
    dsimp only at e
    rcases hf : f a r with ⟨x, m'⟩
    rw [hf] at e
    cases e
    have h1 := h _ _ _ _ hd
    have h2 := k a _ _ _ _ hf
    omega

theorem tick {k : Nat} {d : DeN α} {s : α → Nat} (h : Adds (c + k) s d) : Adds c s (DeN.tick k >>= fun _ => d) := by
  refine bind (fun _ => k) ?_ fun _ => h
  intro input rest a n e
  simp only [DeN.tick, Prod.mk.injEq] at e
  dsimp only
  omega

theorem times {d : DeN α} {s : α → Nat} (h : Adds 0 s d) : ∀ n, Adds 0 (fun l => (l.map fun a => s a + 1).sum) (DeN.times n d)
  | 0 => pure rfl
  | n + 1 => by
    refine h.bind _ fun a => tick ((times h n).bind _ fun l => pure ?_)
    simp only [List.map_cons, List.sum_cons]
    omega

theorem timesFrom {d : Nat → DeN α} {s : α → Nat} (h : ∀ i, Adds 0 s (d i)) :
    ∀ n i, Adds 0 (fun l => (l.map fun a => s a + 1).sum) (DeN.timesFrom n i d)
  | 0, _ => pure rfl
  | n + 1, i => by
    refine (h i).bind _ fun a => tick ((timesFrom h n (i + 1)).bind _ fun l => pure ?_)
    simp only [List.map_cons, List.sum_cons]
    omega

theorem vec {t : Target} {d : DeN α} {s : α → Nat} (h : Adds 0 s d) : Adds 0 (listUnits fun a => s a + 1) (deVecN t d) :=
  prim.bind _ fun n => (times h n).more fun l => by unfold listUnits; omega

theorem str (t : Target) : Adds 0 strUnits (deStrN t) := by
  refine prim.bind _ fun len => ?_
  intro input rest s k e
  unfold deStrBody at e
  split at e
  · split at e
    · rename_i hle s' hs
      simp only [Prod.mk.injEq, Res.ok.injEq] at e
      obtain ⟨⟨rfl, rfl⟩, rfl⟩ := e
      have h1 := utf8_of_fromUtf8 hs
      have h2 : byteLen s' = len := by
        rw [← utf8_length, h1, List.length_take]; omega
      simp only [strUnits]
      omega
    · cases e
  · cases e

theorem array {t : Target} {n : Nat} {d : DeN α} {s : α → Nat} (h : Adds 0 s d) : Adds 0 (listUnits fun a => s a + 1) (deArrayN t n d) := by
  refine prim.bind _ fun len => ?_
  split
  · exact (times h n).more fun l => by unfold listUnits; omega
  · intro input rest a k e
    simp only [DeN.free, Prod.mk.injEq, De.lift_apply] at e
    cases e.1

theorem deltas {t : Target} : ∀ n p, Adds 0 (fun l => 2 * l.length) (deDeltasN t n p)
  | 0, _ => pure rfl
  | n + 1, p => by
    refine prim.bind _ fun parsed => free.bind _ fun item => tick ((deltas n (some item)).bind _ fun l => pure ?_)
    simp only [List.length_cons]; omega

/-- As many products as numbers, so that the difference is zero. -/
theorem productSeq (t : Target) (existing : List Product) :
    Adds 0 (fun r => seqSteps r.1) (deProductSeqN t existing) ∧
      ∀ input rest r k, deProductSeqN t existing input = (.ok (rest, r), k) → r.2.length = r.1.length := by
  have key : ∀ ids : List Nat, ∀ input rest r k,
      (DeN.tick (lookups existing ids) >>= fun _ => DeN.free (De.lift (Res.ofOption (lookupAll existing ids))) >>= fun ps =>
        Pure.pure (ps, ids)) input = (.ok (rest, r), k) → 2 * ids.length + 1 + k = seqSteps r.1 ∧ r.2.length = r.1.length := by
    intro ids input rest r k e
    have e : DeN.bind (DeN.tick (lookups existing ids)) (fun _ => DeN.bind (DeN.free (De.lift (Res.ofOption (lookupAll existing ids))))
      (fun ps => Pure.pure (ps, ids))) input = (.ok (rest, r), k) := e
    simp only [DeN.bind, DeN.free, DeN.tick, De.lift_apply] at e
    cases hl : lookupAll existing ids with
    | none => rw [hl] at e; cases e
    | some ps =>
      rw [hl] at e
      cases e
      have h1 := (lookupAll_spec hl).1
      have h2 : lookups existing ids = ids.length := by
        rw [lookups_looks, looks_all, List.length_map]
        rw [List.all_map]
        refine List.all_eq_true.2 fun id hid => ?_
        obtain ⟨j, hj, rfl⟩ := List.mem_iff_getElem.1 hid
        obtain ⟨id, e1, e2⟩ := (lookupAll_spec hl).2 j ps[j] (List.getElem?_eq_getElem (by omega))
        rw [List.getElem?_eq_getElem hj] at e1
        cases e1
        simpa using (List.getElem?_eq_some_iff.1 e2).1
      show 2 * ids.length + 1 + (lookups existing ids + 0) = 3 * ps.length + 1 ∧ ids.length = ps.length
      omega
  have seq : Adds 0 (fun ids => 2 * ids.length + 1) (deSeqN t) := prim.bind _ fun n => (deltas n none).more fun l => by omega
  refine ⟨seq.bind _ fun ids => fun input rest r k e => ?_, fun input rest r k e => ?_⟩
  · have := (key ids input rest r k e).1
    omega
  · have e : DeN.bind (deSeqN t) _ input = (.ok (rest, r), k) := e
    rw [DeN.bind] at e
    rcases hd : deSeqN t input with ⟨r', m⟩
    rw [hd] at e
    cases r' with
    | none => cases e
    | panic w => cases e
    | ok p =>
      obtain ⟨r', ids⟩ := p
      dsimp only at e
      have e1 := congrArg Prod.fst e
      dsimp only at e1
      exact (key ids r' rest r _ (Prod.ext e1 rfl)).2

/-- A read with the products and numbers of a sequence. -/
theorem bindSeq {t : Target} {existing : List Product} {f : List Product × List Nat → DeN β} {s' : β → Nat}
    (k : ∀ r, r.2.length = r.1.length → Adds (c + seqSteps r.1) s' (f r)) : Adds c s' (deProductSeqN t existing >>= f) := by
  intro input rest b n e
  have e : DeN.bind (deProductSeqN t existing) f input = (.ok (rest, b), n) := e
  rw [DeN.bind] at e
  rcases hd : deProductSeqN t existing input with ⟨r, m⟩
  rw [hd] at e
  cases r with
  | none => cases e
  | panic w => cases e
  | ok p =>
    obtain ⟨r, a⟩ := p
    dsimp only at e
    rcases hf : f a r with ⟨x, m'⟩
    rw [hf] at e
    cases e
    have h1 := (productSeq t existing).1 _ _ _ _ hd
    have h2 := k a ((productSeq t existing).2 _ _ _ _ hd) _ _ _ _ hf
    dsimp only at h1
    omega

theorem vendors (t : Target) : Adds 0 (fun m => listUnits (fun v : Vendor => strUnits v.name + 3) m.byId) (deVendorsN t) := by
  refine prim.bind _ fun n => ?_
  refine Adds.bind _ (timesFrom (s := fun v : Vendor => strUnits v.name + 2) (fun i => ?_) n 0) fun vs => pure ?_
  · exact (str t).bind _ fun name => tick (pure (by dsimp only; omega))
  · simp only [listUnits, Nat.add_assoc, Nat.reduceAdd]; omega

theorem product (t : Target) (sid : Nat) (vm : VendorManager) :
    Adds 0 (fun p => strUnits p.description + strUnits p.title + strUnits p.id + 2) (deProductN t sid vm) := by
  refine (str t).bind _ fun description => (str t).bind _ fun title => (str t).bind _ fun id => prim.bind _ fun vendorId =>
    tick (free.bind _ fun v => pure ?_)
  dsimp only
  omega

theorem feature (t : Target) : Adds 0 Feature.loadSteps (deFeatureN t) := by
  refine prim.bind _ fun id => ?_
  split
  · exact (vec (str t)).bind _ fun _ => pure (by simp only [Feature.loadSteps, Nat.zero_add])
  · split
    · exact (vec prim).bind _ fun _ => pure (by simp only [Feature.loadSteps, Nat.zero_add])
    · split
      · exact (vec prim).bind _ fun _ => pure (by simp only [Feature.loadSteps, Nat.zero_add])
      · exact fail

theorem tags (t : Target) (existing : List Product) :
    Adds 0 (listUnits fun tag : Tag => strUnits tag.name + seqSteps tag.products + tag.products.length + 1) (deTagsN t existing) := by
  refine prim.bind _ fun n => (timesFrom (s := fun tag : Tag => strUnits tag.name + seqSteps tag.products + tag.products.length)
    (fun i => ?_) n 0).more fun l => by unfold listUnits; omega
  refine (str t).bind _ fun name => bindSeq fun r hr => tick (pure ?_)
  dsimp only
  omega

theorem catOption (t : Target) (existing : List Product) (sid : Nat) :
    Adds 0 (fun op => strUnits op.name + seqSteps op.content + op.content.length) (deCatOptionN t existing sid) := by
  refine (str t).bind _ fun name => bindSeq fun r hr => tick (pure ?_)
  dsimp only
  omega

theorem category (t : Target) (existing : List Product) (next : Nat) :
    Adds 0 (fun cat => 1 + strUnits cat.name + listUnits (fun op => strUnits op.name + seqSteps op.content + op.content.length + 1) cat.options)
      (deCategoryN t existing next) := by
  refine prim.bind _ fun exclusive => (str t).bind _ fun name => prim.bind _ fun n =>
    (timesFrom (fun i => catOption t existing i) n next).bind _ fun options => pure ?_
  simp only [listUnits]
  omega

theorem categoriesLoop (t : Target) (existing : List Product) : ∀ n next,
    Adds 0 (fun l => (l.map fun cat => 1 + strUnits cat.name +
      listUnits (fun op => strUnits op.name + seqSteps op.content + op.content.length + 1) cat.options + 1).sum) (deCategoriesLoopN t existing n next)
  | 0, _ => pure rfl
  | n + 1, next => by
    refine (category t existing next).bind _ fun cat => tick ((categoriesLoop t existing n _).bind _ fun cats => pure ?_)
    simp only [List.map_cons, List.sum_cons]
    omega

theorem node (t : Target) : ∀ fuel, Adds 0 GramNode.loadSteps (deNodeN t fuel)
  | 0 => fail
  | fuel + 1 => by
    refine prim.bind _ fun item => prim.bind _ fun weight => (vec (node t fuel)).bind _ fun l => tick (pure ?_)
    rw [GramNode.loadSteps_mk]
    have : (l.map fun c => c.loadSteps + 2).sum = (l.map fun c => c.loadSteps + 1).sum + l.length := by
      clear weight item
      induction l with
      | nil => rfl
      | cons c l ih => simp only [List.map_cons, List.sum_cons, List.length_cons, ih]; omega
    unfold listUnits
    omega

theorem posting (t : Target) (n : Nat) (c : Container) :
    Adds 0 (fun e => listUnits (fun _ => 2) e.1 + seqSteps e.2) (dePostingN t n c) := by
  refine (array prim).bind _ fun gram => bindSeq fun r hr => pure ?_
  simp only [Nat.reduceAdd]
  omega

end Adds

/-- Of bytes that begin with `s`, `d` reads these, returns `a` and takes `k` steps. -/
def Takes (s : Bytes) (d : DeN α) (a : α) (k : Nat) : Prop := ∀ rest, d (s ++ rest) = (.ok (rest, a), k)

namespace Takes
variable {α β : Type}

theorem of {s : Bytes} {dn : DeN α} {d : De α} {a : α} {steps : α → Nat} (h : RT s d a) (he : Erases dn d) (hs : Adds 0 steps dn) :
    Takes s dn a (steps a) := by
  intro rest
  have h1 := he (s ++ rest)
  rw [h rest] at h1
  rcases hd : dn (s ++ rest) with ⟨r, k⟩
  rw [hd] at h1
  dsimp only at h1
  subst h1
  have := hs _ _ _ _ hd
  rw [← this, Nat.zero_add]

theorem pure {a : α} : Takes [] (Pure.pure a) a 0 := fun _ => rfl

theorem bind {s s' : Bytes} {d : DeN α} {f : α → DeN β} {a : α} {b : β} {k k' : Nat} (h : Takes s d a k) (h' : Takes s' (f a) b k') :
    Takes (s ++ s') (d >>= f) b (k + k') := by
  intro rest
  show DeN.bind d f (s ++ s' ++ rest) = _
  rw [DeN.bind, List.append_assoc, h (s' ++ rest)]
  dsimp only
  rw [h' rest]

theorem bindPure {s : Bytes} {d : DeN α} {f : α → β} {a : α} {k : Nat} (h : Takes s d a k) :
    Takes s (d >>= fun a => Pure.pure (f a)) (f a) k := by
  have := h.bind (f := fun a => Pure.pure (f a)) (Takes.pure (a := f a))
  rwa [List.append_nil] at this

theorem prim {s : Bytes} {d : De α} {a : α} (h : RT s d a) : Takes s (DeN.prim d) a 1 := of h (Erases.prim d) Adds.prim

/-- A table whose keys differ, whatever the order in which it was written. -/
theorem map {K V W σ : Type} [DecidableEq K] {t : Target} (o : HashOrd) (site : σ) {serK : K → Bytes} {serV : V → Bytes}
    {kn : DeN K} {deK : De K} {vn : DeN W} {deV : De W} {f : V → W} {sk : K → Nat} {sv : W → Nat} (m : AMap K V) (hm : AMap.Wf m)
    (hf : Fits t (serMap o site serK serV m).length) (hpos : ∀ p ∈ m, 1 ≤ (serK p.1).length)
    (hk : ∀ p ∈ m, Fits t (serK p.1).length → RT (serK p.1) deK p.1)
    (hv : ∀ p ∈ m, Fits t (serV p.2).length → RT (serV p.2) deV (f p.2))
    (ek : Erases kn deK) (ev : Erases vn deV) (ak : Adds 0 sk kn) (av : Adds 0 sv vn) :
    Takes (serMap o site serK serV m) (deMapN t kn vn) ((o.order site m).map fun p => (p.1, f p.2))
      (listUnits (fun e => sk e.1 + sv e.2 + 1) ((o.order site m).map fun p => (p.1, f p.2))) := by
  have hp := o.perm site m
  have hwf : AMap.Wf ((o.order site m).map fun p => (p.1, f p.2)) := by
    have := hm.perm hp
    simpa [AMap.Wf, List.map_map, Function.comp_def] using this
  have hlen : (serMap o site serK serV m).length = (serUsize (o.order site m).length).length +
      ((o.order site m).flatMap fun p => serK p.1 ++ serV p.2).length := by
    simp [serMap, serMapEntries]
  have h1 : (o.order site m).length ≤ ((o.order site m).flatMap fun p => serK p.1 ++ serV p.2).length := by
    apply length_flatMap_ge
    intro p hpm
    have := hpos p (hp.mem_iff.1 hpm)
    simp only [List.length_append]; omega
  have h2 : ∀ p ∈ o.order site m, (serK p.1).length + (serV p.2).length ≤
      (serMap o site serK serV m).length := by
    intro p hpm
    have := length_le_flatMap (ser := fun p : K × V => serK p.1 ++ serV p.2) hpm
    simp only [List.length_append] at this
    omega
  have h3 : RT ((o.order site m).flatMap fun p => serK p.1 ++ serV p.2)
      (De.times (o.order site m).length (do
        let k ← deK
        let v ← deV
        Pure.pure (k, v))) ((o.order site m).map fun p => (p.1, f p.2)) := by
    refine times_rt (f := fun p : K × V => (p.1, f p.2)) _ fun p hpm => ?_
    have := h2 p hpm
    refine RT.bind (hk p (hp.mem_iff.1 hpm) (hf.mono (by omega))) ?_
    exact RT.bind_pure (hv p (hp.mem_iff.1 hpm) (hf.mono (by omega)))
  have h4 := Takes.of h3 (Erases.times (ek.bind fun _ => ev.bind fun _ => Erases.pure _) _)
    (Adds.times (s := fun e : K × W => sk e.1 + sv e.2)
      (ak.bind _ fun k => av.bind _ fun v => Adds.pure (by dsimp only; omega)) _)
  have h5 := (Takes.prim (deLen_rt (t := t) (hf.mono (by omega)) "map")).bind (s := serUsize (o.order site m).length)
    (f := fun len => DeN.times len (do
      let k ← kn
      let v ← vn
      Pure.pure (k, v)) >>= fun entries => Pure.pure (AMap.collect entries)) (h4.bindPure (f := AMap.collect))
  rw [AMap.collect_of_wf hwf, Nat.add_comm] at h5
  exact h5

theorem container {t : Target} (o : HashOrd) {c : Container} (h : ContainerWf c) (hf : Fits t (serContainer o c).length) :
    Takes (serContainer o c) (deContainerN t) (reloadContainer o c) (reloadContainer o c).loadSteps := by
  simp only [serContainer, List.length_append] at hf
  obtain ⟨hv1, hv2⟩ := deVendors_fit o h.vendors (t := t) (hf.mono (by omega))
  have e : serContainer o c = serVendors o c.vendors ++ (serUsize c.products.length ++
      (c.products.flatMap serProduct ++ (serFeatureSet o c.extra))) := by
    simp [serContainer, serVec, List.append_assoc]
  have hpl := length_flatMap_ge (l := c.products) (ser := serProduct) fun a _ => serProduct_pos a
  have hsv : (serVec serProduct c.products).length =
      (serUsize c.products.length).length + (c.products.flatMap serProduct).length := by simp [serVec]
  have h1 := Takes.of hv1 (Erases.vendors t) (Adds.vendors t)
  have h2 := Takes.prim (deUsize_rt (t := t) (n := c.products.length) (hf.1.mono (by omega)))
  have h3 : RT (c.products.flatMap serProduct) (De.timesFrom c.products.length 0 fun id => deProduct t id c.vendors)
      (c.products.map reloadProduct) := by
    refine timesFrom_rt c.products 0 fun j p hp => ?_
    have hs := h.sid j p hp
    have hm := List.mem_of_getElem? hp
    have hvid := (List.getElem?_eq_some_iff.1 (h.vendor p hm)).1
    have := deProduct_fit (t := t) p c.vendors (h.vendor p hm) (hf.mono (by omega)) (hf.mono (by
      have := length_le_flatMap (ser := serProduct) hm
      omega))
    rw [hs] at this
    rwa [Nat.zero_add]
  have h4 := Takes.of h3 (Erases.timesFrom (fun i => Erases.product t i c.vendors) _ 0) (Adds.timesFrom (fun i => Adds.product t i c.vendors) _ 0)
  have h5 := Takes.map (t := t) o "features" (serK := serStr) (serV := serFeature) (f := id) c.extra h.extra
    (hf.mono (by simp only [serFeatureSet]; omega))
    (fun p _ => serStr_pos _) (fun p _ hh => deStr_rt' hh) (fun p _ hh => deFeature_fit _ hh)
    (Erases.str t) (Erases.feature t) (Adds.str t) (Adds.feature t)
  rw [show (o.order "features" c.extra).map (fun p => (p.1, id p.2)) = o.order "features" c.extra by simp] at h5
  have h6 := h1.bind (f := fun vendors => DeN.prim (deUsize t) >>= fun count =>
    DeN.timesFrom count 0 (fun id => deProductN t id vendors) >>= fun products =>
    deMapN t (deStrN t) (deFeatureN t) >>= fun extra => Pure.pure ({ products, vendors, extra } : Container))
    (h2.bind (h4.bind (h5.bindPure)))
  rw [e]
  have e2 : (reloadContainer o c).loadSteps = listUnits (fun v => strUnits v.name + 3) c.vendors.byId + (1 +
    (((c.products.map reloadProduct).map fun p => strUnits p.description + strUnits p.title + strUnits p.id + 2 + 1).sum +
      listUnits (fun e => strUnits e.1 + e.2.loadSteps + 1) (o.order "features" c.extra))) := by
    simp only [Container.loadSteps, reloadContainer, listUnits, Nat.add_assoc, Nat.reduceAdd]
    omega
  rw [e2]
  exact h6

theorem gramIndex {t : Target} {n : Nat} (o : HashOrd) {ix : GramIndex Char} (h : GramWf n ix)
    (hf : Fits t (serGramIndex o ix).length) :
    Takes (serGramIndex o ix) (deGramIndexN t n) (reloadGram o ix) (reloadGram o ix).loadSteps := by
  simp only [serGramIndex, List.length_append] at hf
  have e : serGramIndex o ix = serContainer o ix.container ++ (serMap o "roots" serChar serNode ix.roots ++
      (serUsize ix.data.length ++ (o.order "data" ix.data).flatMap serPosting)) := by
    simp [serGramIndex, List.append_assoc]
  have hpl := products_le o ix.container
  have t1 := Takes.container o h.container (t := t) (hf.mono (by omega))
  have t2 := Takes.map (t := t) o "roots" (serK := serChar) (serV := serNode) (f := id) ix.roots h.roots (hf.mono (by omega))
      (fun p _ => serU64Loop_pos 9 _) (fun p _ _ => deChar_rt _) (fun p _ hh => deNodeTop_fit _ hh)
      (Erases.prim _) (vn := deNodeTopN t) (sv := GramNode.loadSteps) (fun input => Erases.node t (input.length + 1) input) Adds.prim
      (fun input rest a k e => Adds.node t (input.length + 1) _ _ _ _ e)
  rw [show (o.order "roots" ix.roots).map (fun p => (p.1, id p.2)) = o.order "roots" ix.roots by simp] at t2
  have hpos : ∀ e : List Char × List Product, 1 ≤ (serPosting e).length := by
    intro e
    have := serProductSeq_pos e.2
    simp only [serPosting, List.length_append]; omega
  have h1 := length_flatMap_ge (l := o.order "data" ix.data) (ser := serPosting) fun a _ => hpos a
  have hperm := o.perm "data" ix.data
  have hlen := hperm.length_eq
  have t3 := Takes.prim (deLen_rt (t := t) (n := ix.data.length) (hf.mono (by omega)) "data")
  have hwf : AMap.Wf ((o.order "data" ix.data).map fun e => (e.1, e.2.map reloadProduct)) := by
    have := h.data.perm hperm
    simpa [AMap.Wf, List.map_map, Function.comp_def] using this
  have key : RT ((o.order "data" ix.data).flatMap serPosting)
      (De.times ix.data.length (dePosting t n (reloadContainer o ix.container)))
      ((o.order "data" ix.data).map fun e => (e.1, e.2.map reloadProduct)) := by
    rw [← hlen]
    refine times_rt _ fun e he => ?_
    obtain ⟨hn, hl⟩ := h.grams e (hperm.mem_iff.1 he)
    have hle := length_le_flatMap (ser := serPosting) he
    simp only [serPosting, List.length_append] at hle
    have harr := serArray_length e.1
    have ha : RT (serArray serChar e.1) (deArray t n deChar) e.1 := by
      rw [← hn]
      exact deArray_rt e.1 (hf.1.mono (by omega)) fun c _ => deChar_rt c
    refine RT.bind ha ?_
    exact RT.bind_pure (f := fun r : List Product × List Nat => (e.1, r.1))
      (deProductSeq_fit hl rfl (hf.mono (by omega)) (hf.mono (by omega)))
  have t4 := Takes.of key (Erases.times (Erases.bind (Erases.array t n (Erases.prim _)) fun _ =>
      (Erases.productSeq t (reloadContainer o ix.container).products).bind fun _ => Erases.pure _) _)
    (Adds.times (Adds.posting t n (reloadContainer o ix.container)) _)
  have t5 := t4.bindPure (f := fun es => (⟨o.order "roots" ix.roots, AMap.collect es, reloadContainer o ix.container⟩ : GramIndex Char))
  rw [AMap.collect_of_wf hwf] at t5
  have t6 := t1.bind (f := fun container => deMapN t (DeN.prim deChar) (deNodeTopN t) >>= fun roots => deLenN t "data" >>= fun len =>
    DeN.times len (dePostingN t n container) >>= fun es => Pure.pure (⟨roots, AMap.collect es, container⟩ : GramIndex Char))
    (t2.bind (t3.bind t5))
  rw [e]
  have e2 : (reloadGram o ix).loadSteps = (reloadContainer o ix.container).loadSteps +
      (listUnits (fun e : Char × GramNode Char => 1 + e.2.loadSteps + 1) (o.order "roots" ix.roots) + (1 +
        (((o.order "data" ix.data).map fun e => (e.1, e.2.map reloadProduct)).map fun e : List Char × List Product =>
          listUnits (fun _ => 2) e.1 + seqSteps e.2 + 1).sum)) := by
    have : (fun e : Char × GramNode Char => 1 + e.2.loadSteps + 1) = fun e => e.2.loadSteps + 2 := by funext e; omega
    rw [this]
    simp only [GramIndex.loadSteps, reloadGram]
    unfold listUnits
    omega
  rw [e2]
  exact t6

theorem classic {t : Target} (o : HashOrd) {c c' : Container} {cl : Classic} (h : ClassicWf c cl)
    (he : c'.products = c.products.map reloadProduct) (hc : Fits t c.products.length)
    (hf : Fits t (serClassic o cl).length) :
    Takes (serClassic o cl) (deClassicN t c') (reloadClassic o cl) (reloadClassic o cl).loadSteps := by
  simp only [serClassic, List.length_append] at hf
  have e : serClassic o cl = serCategories cl.categories ++ (serTags cl.tags ++ serOrders o cl.order) := by
    simp [serClassic, List.append_assoc]
  have h1 : RT (serCategories cl.categories) (deCategories t c'.products) (reloadCategories 0 cl.categories) := by
    have h1 := length_flatMap_ge (l := cl.categories) (ser := serCategory) fun a _ => serCategory_pos a
    simp only [serCategories, List.length_append] at hf
    refine RT.bind (deLen_rt (hf.mono (by omega)) _) ?_
    exact deCategoriesLoop_fit he hc cl.categories 0 h.options (hf.mono (by omega))
  have t1 := Takes.of (dn := deCategoriesN t c'.products) (steps := listUnits fun cat : Category => 1 + strUnits cat.name +
      listUnits (fun op => strUnits op.name + seqSteps op.content + op.content.length + 1) cat.options + 1) h1
    (Erases.bind (Erases.prim _) fun n => Erases.categoriesLoop t c'.products n 0)
    (Adds.prim.bind _ fun n => (Adds.categoriesLoop t c'.products n 0).more fun l => by unfold listUnits; omega)
  have t2 := Takes.of (deTags_fit (t := t) he hc h.tags h.tagIds (hf.mono (by omega))) (Erases.tags t _) (Adds.tags t _)
  have t3 := Takes.map (t := t) o "orders" (serK := serStr) (serV := serVec serUsize) (f := id) cl.order h.order
    (hf.mono (by simp only [serOrders]; omega))
    (fun p _ => serStr_pos _) (fun p _ hh => deStr_rt' hh) (fun p hp hh => by
      have := deVec_fit (t := t) (ser := serUsize) (de := deUsize t) (f := id) p.2 hh
        (fun a _ => serUsize_pos a) (fun a ha _ => deUsize_rt (hc.1.mono (h.ranks p hp a ha)))
      rwa [List.map_id] at this)
    (Erases.str t) (Erases.vec t (Erases.prim _)) (Adds.str t) (Adds.vec Adds.prim)
  rw [show (o.order "orders" cl.order).map (fun p => (p.1, id p.2)) = o.order "orders" cl.order by simp] at t3
  have t4 := t1.bind (f := fun categories => deTagsN t c'.products >>= fun tags =>
    deMapN t (deStrN t) (deVecN t (DeN.prim (deUsize t))) >>= fun order => Pure.pure ({ categories, tags, order } : Classic))
    (t2.bind (t3.bindPure))
  rw [e]
  have e2 : (reloadClassic o cl).loadSteps = listUnits (fun cat : Category => 1 + strUnits cat.name +
      listUnits (fun op => strUnits op.name + seqSteps op.content + op.content.length + 1) cat.options + 1) (reloadCategories 0 cl.categories) +
      (listUnits (fun tag : Tag => strUnits tag.name + seqSteps tag.products + tag.products.length + 1) (cl.tags.map reloadTag) +
        listUnits (fun e => strUnits e.1 + listUnits (fun _ => 1 + 1) e.2 + 1) (o.order "orders" cl.order)) := by
    simp only [Classic.loadSteps, reloadClassic, Nat.add_assoc, Nat.reduceAdd]
  rw [e2]
  exact t4

end Takes

/-- C99 (exactly): loading a written file takes exactly the steps that what is loaded gives, whatever the hash orders it was written
with and whatever follows it. -/
theorem C99_exact {t o lower parse n input ix cl} (hn : 1 ≤ n) (h : buildAll t o lower parse n input = .ok (ix, cl))
    (o' : HashOrd) (t' : Target) (hf : Fits t' (serializeAll o' ix cl).length) (rest : Bytes) :
    ∃ ix' cl', deserializeAll t' n (serializeAll o' ix cl ++ rest) = .ok (ix', cl') ∧
      deserializeAllN t' n (serializeAll o' ix cl ++ rest) = (.ok (rest, ix', cl'), ix'.loadSteps + cl'.loadSteps) := by
  have hix := gramWf_of_built hn h
  have hcl := classicWf_of_built h
  refine ⟨_, _, deserializeAll_fit o' hix hcl hf rest, ?_⟩
  simp only [serializeAll, List.length_append] at hf
  have hpl : ix.container.products.length ≤ (serGramIndex o' ix).length := by
    have := products_le o' ix.container
    simp only [serGramIndex, List.length_append]; omega
  have h1 := Takes.gramIndex o' hix (t := t') (hf.mono (by omega))
  have h2 := Takes.classic (c' := (reloadGram o' ix).container) o' hcl rfl (hf.mono (by omega)) (t := t') (hf.mono (by omega))
  exact (h1.bind (f := fun ix => deClassicN t' ix.container >>= fun cl => Pure.pure (ix, cl)) h2.bindPure) rest

end Idx
