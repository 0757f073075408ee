import Verif.Props.LoadCost
import Verif.Props.SearchCost

/-! The steps a load takes at least, counted from what is loaded. -/

namespace Idx

/-- A successful read takes at least the steps of what it returns. -/
def Least (steps : α → Nat) (d : DeN α) : Prop := ∀ input rest a k, d input = (.ok (rest, a), k) → steps a ≤ k

namespace Least
variable {α β : Type}

theorem pure {a : α} {s : α → Nat} (h : s a = 0) : Least s (Pure.pure a) := by
  intro input rest b k e
  have e : ((.ok (input, a), 0) : Res (Bytes × α) × Nat) = (.ok (rest, b), k) := e
  simp only [Prod.mk.injEq, Res.ok.injEq] at e
  obtain ⟨⟨_, rfl⟩, rfl⟩ := e
  omega

theorem prim {d : De α} : Least (fun _ => 1) (DeN.prim d) := by
  intro input rest a k e
  simp only [DeN.prim, Prod.mk.injEq] at e
  have := e.2
  dsimp only
  omega

theorem free {d : De α} : Least (fun _ => 0) (DeN.free d) := fun _ _ _ _ _ => Nat.zero_le _

theorem fail {s : α → Nat} : Least s (DeN.free De.fail) := fun input rest a k e => by simp [DeN.free] at e

theorem mono {d : DeN α} {s s' : α → Nat} (h : Least s d) (hle : ∀ a, s' a ≤ s a) : Least s' d :=
  fun input rest a k e => Nat.le_trans (hle a) (h _ _ _ _ e)

theorem bind {d : DeN α} {f : α → DeN β} {s' : β → Nat} (s : α → Nat) (h : Least s d) (k : ∀ a, Least (fun b => s' b - s a) (f a)) :
    Least s' (d >>= f) := by
  intro input rest b n e
  have e : DeN.bind d f input = (.ok (rest, b), n) := e
  rw [DeN.bind] at e
  rcases hd : d input with ⟨r, m⟩
  rw [hd] at e
  cases r with
  | none => cases e
  | panic w => cases e
  | ok p =>
    obtain ⟨r, a⟩ := p
    dsimp only at e
    rcases hf : f a r with ⟨x, m'⟩
    rw [hf] at e
    cases e
    have h1 := h _ _ _ _ hd
    have h2 := k a _ _ _ _ hf
    dsimp only at h2
    omega

theorem tick {k : Nat} {d : DeN α} {s : α → Nat} (h : Least (fun a => s a - k) d) : Least s (DeN.tick k >>= fun _ => d) := by
  refine bind (fun _ => k) ?_ fun _ => h
  intro input rest a n e
  simp only [DeN.tick, Prod.mk.injEq] at e
  dsimp only
  omega

theorem times {d : DeN α} {s : α → Nat} (h : Least s d) : ∀ n, Least (fun l => (l.map fun a => s a + 1).sum) (DeN.times n d)
  | 0 => pure rfl
  | n + 1 => by
    refine h.bind _ fun a => tick ((times h n).bind _ fun l => pure ?_)
    simp only [List.map_cons, List.sum_cons]
    omega

theorem timesFrom {d : Nat → DeN α} {s : α → Nat} (h : ∀ i, Least s (d i)) :
    ∀ n i, Least (fun l => (l.map fun a => s a + 1).sum) (DeN.timesFrom n i d)
  | 0, _ => pure rfl
  | n + 1, i => by
    refine (h i).bind _ fun a => tick ((timesFrom h n (i + 1)).bind _ fun l => pure ?_)
    simp only [List.map_cons, List.sum_cons]
    omega

theorem vec {t : Target} {d : DeN α} {s : α → Nat} (h : Least s d) : Least (listUnits fun a => s a + 1) (deVecN t d) :=
  prim.bind _ fun n => (times h n).mono fun l => by unfold listUnits; omega

theorem str (t : Target) : Least strUnits (deStrN t) := by
  refine prim.bind _ fun len => ?_
  intro input rest s k e
  unfold deStrBody at e
  split at e
  · split at e
    · rename_i hle s' hs
      simp only [Prod.mk.injEq, Res.ok.injEq] at e
      obtain ⟨⟨rfl, rfl⟩, rfl⟩ := e
      have h1 := utf8_of_fromUtf8 hs
      have h2 : byteLen s' = len := by
        rw [← utf8_length, h1, List.length_take]; omega
      simp only [strUnits]
      omega
    · cases e
  · cases e

theorem map {K V : Type} [DecidableEq K] {t : Target} {dk : DeN K} {dv : DeN V} {sk : K → Nat} {sv : V → Nat} (hk : Least sk dk)
    (hv : Least sv dv) : Least (listUnits fun e => sk e.1 + sv e.2 + 1) (deMapN t dk dv) := by
  refine prim.bind _ fun n => ?_
  refine Least.bind _ (times (s := fun e : K × V => sk e.1 + sv e.2) ?_ n) fun l => pure ?_
  · exact hk.bind _ fun k => hv.bind _ fun v => pure (by simp only; omega)
  · have := collect_sum (fun e : K × V => sk e.1 + sv e.2 + 1) l
    simp only [listUnits]
    omega

theorem array {t : Target} {n : Nat} {d : DeN α} {s : α → Nat} (h : Least s d) : Least (listUnits fun a => s a + 1) (deArrayN t n d) := by
  refine prim.bind _ fun len => ?_
  split
  · exact (times h n).mono fun l => by unfold listUnits; omega
  · intro input rest a k e
    simp only [DeN.free, Prod.mk.injEq, De.lift_apply] at e
    cases e.1

theorem deltas {t : Target} : ∀ n p, Least (fun l => 2 * l.length) (deDeltasN t n p)
  | 0, _ => pure rfl
  | n + 1, p => by
    refine prim.bind _ fun parsed => free.bind _ fun item => tick ((deltas n (some item)).bind _ fun l => pure ?_)
    simp only [List.length_cons]; omega

end Least

/-- The products of a sequence are looked up one after the other until one does not exist. -/
theorem lookups_looks (existing : List Product) : ∀ ids : List Nat, lookups existing ids = looks (ids.map fun id => decide (id < existing.length))
  | [] => rfl
  | id :: ids => by
    unfold lookups
    rw [List.map_cons]
    split
    · rename_i h
      rw [decide_eq_true h, looks_true, lookups_looks existing ids, Nat.add_comm]
    · rename_i h
      rw [decide_eq_false h, looks_false]

/-- A sequence of product numbers: its length; each number is read, appended and looked up. -/
def seqSteps (l : List Product) : Nat := 3 * l.length + 1

/-- A node: character, weight, number of children; each child is appended and inserted; the node itself is put into the arena. -/
def GramNode.loadSteps : GramNode Char → Nat
  | .mk _ _ l => 4 + (l.attach.map fun ⟨c, _⟩ => GramNode.loadSteps c + 2).sum

theorem GramNode.loadSteps_mk (item : Char) (w : F32) (l : List (GramNode Char)) :
    (GramNode.mk item w l).loadSteps = 4 + (l.map fun c => c.loadSteps + 2).sum := by
  rw [GramNode.loadSteps]
  have : (l.attach.map fun x : { c // c ∈ l } => GramNode.loadSteps x.1 + 2) = l.map fun c => c.loadSteps + 2 := by
    rw [List.attach_map_val (f := fun c => GramNode.loadSteps c + 2)]
  rw [this]

/-- A column of features: its kind, its length, its values. -/
def Feature.loadSteps : Feature → Nat
  | .string l => 1 + listUnits (fun s => strUnits s + 1) l
  | .float l => 1 + listUnits (fun _ => 2) l
  | .integer l => 1 + listUnits (fun _ => 2) l

/-- The vendors are put into three places; a product looks its vendor up. -/
def Container.loadSteps (c : Container) : Nat :=
  listUnits (fun v => strUnits v.name + 3) c.vendors.byId +
    listUnits (fun p => strUnits p.description + strUnits p.title + strUnits p.id + 3) c.products +
    listUnits (fun e => strUnits e.1 + e.2.loadSteps + 1) c.extra

def GramIndex.loadSteps (ix : GramIndex Char) : Nat :=
  ix.container.loadSteps + listUnits (fun e => e.2.loadSteps + 2) ix.roots +
    listUnits (fun e => listUnits (fun _ => 2) e.1 + seqSteps e.2 + 1) ix.data

/-- The numbers of the products of a tag or option are also collected into a set. -/
def Classic.loadSteps (c : Classic) : Nat :=
  listUnits (fun cat => 1 + strUnits cat.name +
      listUnits (fun op => strUnits op.name + seqSteps op.content + op.content.length + 1) cat.options + 1) c.categories +
    listUnits (fun tag => strUnits tag.name + seqSteps tag.products + tag.products.length + 1) c.tags +
    listUnits (fun e => strUnits e.1 + listUnits (fun _ => 2) e.2 + 1) c.order

namespace Least
variable {α β : Type}

/-- As many products as numbers, so that the difference is zero. -/
theorem productSeq (t : Target) (existing : List Product) :
    Least (fun r => seqSteps r.1 + (r.1.length - r.2.length)) (deProductSeqN t existing) := by
  refine Least.bind (fun ids => 2 * ids.length + 1) (prim.bind _ fun n => (deltas n none).mono fun l => by omega) fun ids => ?_
  refine tick ?_
  intro input rest r k e
  have e : DeN.bind (DeN.free (De.lift (Res.ofOption (lookupAll existing ids)))) (fun ps => Pure.pure (ps, ids)) input = (.ok (rest, r), k) := e
  unfold DeN.bind DeN.free at e
  rw [De.lift_apply] at e
  cases hl : lookupAll existing ids with
  | none => rw [hl] at e; cases e
  | some ps =>
    rw [hl] at e
    cases e
    have h1 := (lookupAll_spec hl).1
    have h2 : lookups existing ids = ids.length := by
      rw [lookups_looks, looks_all, List.length_map]
      rw [List.all_map]
      refine List.all_eq_true.2 fun id hid => ?_
      obtain ⟨j, hj, rfl⟩ := List.mem_iff_getElem.1 hid
      obtain ⟨id, e1, e2⟩ := (lookupAll_spec hl).2 j ps[j] (List.getElem?_eq_getElem (by omega))
      rw [List.getElem?_eq_getElem hj] at e1
      cases e1
      simpa using (List.getElem?_eq_some_iff.1 e2).1
    simp only [seqSteps]
    omega

theorem vendors (t : Target) : Least (fun m => listUnits (fun v : Vendor => strUnits v.name + 3) m.byId) (deVendorsN t) := by
  refine prim.bind _ fun n => ?_
  refine Least.bind _ (timesFrom (s := fun v : Vendor => strUnits v.name + 2) (fun i => ?_) n 0) fun vs => pure ?_
  · exact (str t).bind _ fun name => tick (pure (by dsimp only; omega))
  · simp only [listUnits, Nat.add_assoc, Nat.reduceAdd]; omega

theorem product (t : Target) (sid : Nat) (vm : VendorManager) :
    Least (fun p => strUnits p.description + strUnits p.title + strUnits p.id + 2) (deProductN t sid vm) := by
  refine (str t).bind _ fun description => (str t).bind _ fun title => (str t).bind _ fun id => prim.bind _ fun vendorId =>
    tick (free.bind _ fun v => pure ?_)
  dsimp only
  omega

theorem feature (t : Target) : Least Feature.loadSteps (deFeatureN t) := by
  refine prim.bind _ fun id => ?_
  split
  · exact (vec (str t)).bind _ fun _ => pure (by simp only [Feature.loadSteps, Nat.reduceAdd]; omega)
  · split
    · exact (vec prim).bind _ fun _ => pure (by simp only [Feature.loadSteps, Nat.reduceAdd]; omega)
    · split
      · exact (vec prim).bind _ fun _ => pure (by simp only [Feature.loadSteps, Nat.reduceAdd]; omega)
      · exact fail

theorem container (t : Target) : Least Container.loadSteps (deContainerN t) := by
  refine (vendors t).bind _ fun vm => prim.bind _ fun n => (timesFrom (fun i => product t i vm) n 0).bind _ fun ps =>
    (map (str t) (feature t)).bind _ fun extra => pure ?_
  simp only [Container.loadSteps, listUnits, Nat.add_assoc, Nat.reduceAdd]
  omega

theorem tags (t : Target) (existing : List Product) :
    Least (listUnits fun tag : Tag => strUnits tag.name + seqSteps tag.products + tag.products.length + 1) (deTagsN t existing) := by
  refine prim.bind _ fun n => (timesFrom (s := fun tag : Tag => strUnits tag.name + seqSteps tag.products + tag.products.length)
    (fun i => ?_) n 0).mono fun l => by unfold listUnits; omega
  refine (str t).bind _ fun name => (productSeq t existing).bind _ fun r => tick (pure ?_)
  dsimp only
  omega

theorem catOption (t : Target) (existing : List Product) (sid : Nat) :
    Least (fun op => strUnits op.name + seqSteps op.content + op.content.length) (deCatOptionN t existing sid) := by
  refine (str t).bind _ fun name => (productSeq t existing).bind _ fun r => tick (pure ?_)
  dsimp only
  omega

theorem category (t : Target) (existing : List Product) (next : Nat) :
    Least (fun cat => 1 + strUnits cat.name + listUnits (fun op => strUnits op.name + seqSteps op.content + op.content.length + 1) cat.options)
      (deCategoryN t existing next) := by
  refine prim.bind _ fun exclusive => (str t).bind _ fun name => prim.bind _ fun n =>
    (timesFrom (fun i => catOption t existing i) n next).bind _ fun options => pure ?_
  simp only [listUnits]
  omega

theorem categoriesLoop (t : Target) (existing : List Product) : ∀ n next,
    Least (fun l => (l.map fun cat => 1 + strUnits cat.name +
      listUnits (fun op => strUnits op.name + seqSteps op.content + op.content.length + 1) cat.options + 1).sum) (deCategoriesLoopN t existing n next)
  | 0, _ => pure rfl
  | n + 1, next => by
    refine (category t existing next).bind _ fun cat => tick ((categoriesLoop t existing n _).bind _ fun cats => pure ?_)
    simp only [List.map_cons, List.sum_cons]
    omega

theorem classic (t : Target) (c : Container) : Least Classic.loadSteps (deClassicN t c) := by
  refine Least.bind (listUnits fun cat : Category => 1 + strUnits cat.name +
      listUnits (fun op => strUnits op.name + seqSteps op.content + op.content.length + 1) cat.options + 1)
    (prim.bind _ fun n => (categoriesLoop t c.products n 0).mono fun l => by unfold listUnits; omega) fun cats => ?_
  refine (tags t c.products).bind _ fun tags => (map (str t) (vec prim)).bind _ fun order => pure ?_
  simp only [Classic.loadSteps, Nat.reduceAdd]
  omega

theorem node (t : Target) : ∀ fuel, Least GramNode.loadSteps (deNodeN t fuel)
  | 0 => fail
  | fuel + 1 => by
    refine prim.bind _ fun item => prim.bind _ fun weight => (vec (node t fuel)).bind _ fun l => tick (pure ?_)
    rw [GramNode.loadSteps_mk]
    have : (l.map fun c => c.loadSteps + 2).sum = (l.map fun c => c.loadSteps + 1).sum + l.length := by
      clear weight item
      induction l with
      | nil => rfl
      | cons c l ih => simp only [List.map_cons, List.sum_cons, List.length_cons, ih]; omega
    unfold listUnits
    omega

theorem posting (t : Target) (n : Nat) (c : Container) :
    Least (fun e => listUnits (fun _ => 2) e.1 + seqSteps e.2) (dePostingN t n c) := by
  refine (array prim).bind _ fun gram => (productSeq t c.products).bind _ fun r => pure ?_
  simp only [Nat.reduceAdd]
  omega

theorem gramIndex (t : Target) (n : Nat) : Least GramIndex.loadSteps (deGramIndexN t n) := by
  refine (container t).bind _ fun c => ?_
  refine Least.bind (listUnits fun e : Char × GramNode Char => e.2.loadSteps + 2) ?_ fun roots => ?_
  · refine (map (t := t) (prim (d := deChar)) (dv := deNodeTopN t) (sv := GramNode.loadSteps) ?_).mono fun l => ?_
    · intro input rest a k e
      exact node t (input.length + 1) _ _ _ _ e
    · refine Nat.le_of_eq ?_
      unfold listUnits
      congr 3
      funext e
      omega
  · refine prim.bind _ fun len => (times (posting t n c) len).bind _ fun entries => pure ?_
    have := collect_sum (fun e : List Char × List Product => listUnits (fun _ => 2) e.1 + seqSteps e.2 + 1) entries
    simp only [GramIndex.loadSteps]
    unfold listUnits at *
    omega

end Least

/-- C99 (at least): what is loaded gives a number of steps that the load takes at least. -/
theorem C99_least {t : Target} {n : Nat} {bytes rest : Bytes} {ix : GramIndex Char} {cl : Classic} {steps : Nat}
    (h : deserializeAllN t n bytes = (.ok (rest, ix, cl), steps)) : ix.loadSteps + cl.loadSteps ≤ steps := by
  refine (Least.bind (s' := fun r => r.1.loadSteps + r.2.loadSteps) _ (Least.gramIndex t n) fun ix =>
    (Least.classic t ix.container).bind _ fun cl => Least.pure ?_) _ _ _ _ h
  dsimp only
  omega

end Idx
