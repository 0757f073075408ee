import Verif.Props.File
/-! # C62: a loaded index is no larger than its file -/
namespace Idx

/-! ## What is counted

One unit per byte of text, per stored number and per length, four per float. -/

/-- Bytes of text, and one for the length. -/
def strUnits (s : Str) : Nat := byteLen s + 1

/-- A list and what it contains. -/
def listUnits (f : α → Nat) (l : List α) : Nat := (l.map f).sum + 1

/-- Spec: nodes of a tree, each with its character, weight (four) and number of children. -/
def GramNode.units : GramNode Char → Nat
  | .mk _ _ l => 6 + (l.attach.map fun ⟨c, _⟩ => GramNode.units c).sum

/-- A column of features. -/
def Feature.units : Feature → Nat
  | .string l => listUnits strUnits l
  | .float l => listUnits (fun _ => 4) l
  | .integer l => listUnits (fun _ => 1) l

/-- A product: three texts and the number of its vendor. -/
def Product.units (p : Product) : Nat := strUnits p.description + strUnits p.title + strUnits p.id + 1

/-- The products, vendors and features. -/
def Container.units (c : Container) : Nat :=
  listUnits (fun v => strUnits v.name) c.vendors.byId + listUnits Product.units c.products +
    listUnits (fun e => strUnits e.1 + e.2.units) c.extra

/-- The n-gram index: container, trees and posting lists. -/
def GramIndex.units (ix : GramIndex Char) : Nat :=
  ix.container.units + listUnits (fun e => 1 + e.2.units) ix.roots +
    listUnits (fun e => listUnits (fun _ => 1) e.1 + listUnits (fun _ => 1) e.2) ix.data

/-- Categories with their options, tags, and the stored orders. -/
def Classic.units (c : Classic) : Nat :=
  listUnits (fun cat => 1 + strUnits cat.name +
      listUnits (fun op => strUnits op.name + listUnits (fun _ => 1) op.content) cat.options) c.categories +
    listUnits (fun tag => strUnits tag.name + listUnits (fun _ => 1) tag.products) c.tags +
    listUnits (fun e => strUnits e.1 + listUnits (fun _ => 1) e.2) c.order

theorem GramNode.units_mk (item : Char) (w : F32) (l : List (GramNode Char)) :
    (GramNode.mk item w l).units = 5 + listUnits GramNode.units l := by
  rw [GramNode.units, listUnits]
  have : (l.attach.map fun x : { c // c ∈ l } => GramNode.units x.1) = l.map GramNode.units := by
    rw [List.attach_map_val (f := GramNode.units)]
  rw [this]; omega

/-! ## Decoders pay for what they return -/

/-- A successful decode consumes at least as many bytes as the value is worth. -/
def Costs (d : De α) (size : α → Nat) : Prop :=
  ∀ input rest a, d input = .ok (rest, a) → size a + rest.length ≤ input.length

namespace Costs

theorem pure {a : α} {size : α → Nat} (h : size a = 0) : Costs (Pure.pure a : De α) size := by
  intro input rest b e
  simp only [De.pure_apply, Res.ok.injEq, Prod.mk.injEq] at e
  obtain ⟨rfl, rfl⟩ := e
  omega

theorem fail {size : α → Nat} : Costs (De.fail : De α) size := by
  intro input rest b e; simp at e

theorem lift {r : Res α} {size : α → Nat} (h : ∀ a, r = .ok a → size a = 0) : Costs (De.lift r) size := by
  intro input rest a e
  rw [De.lift_apply, Res.bind_eq_ok] at e
  obtain ⟨a', h1, h2⟩ := e
  simp only [Res.ok.injEq, Prod.mk.injEq] at h2
  obtain ⟨rfl, rfl⟩ := h2
  have := h _ h1
  omega

theorem bind {d : De α} {f : α → De β} {size : β → Nat} (s : α → Nat) (h : Costs d s)
    (k : ∀ a, Costs (f a) fun b => size b - s a) : Costs (d >>= f) size := by
  intro input rest b e
  rw [De.bind_apply, Res.bind_eq_ok] at e
  obtain ⟨⟨r, a⟩, h1, h2⟩ := e
  have h3 := h _ _ _ h1
  have h4 := k a _ _ _ h2
  simp only at h3 h4
  omega

theorem mono {d : De α} {s size : α → Nat} (h : Costs d s) (hle : ∀ a, size a ≤ s a) : Costs d size := by
  intro input rest a e
  have := h _ _ _ e
  have := hle a
  omega

theorem of_eats {d : De α} (h : Eats d) : Costs d fun _ => 1 := by
  intro input rest a e
  have := h _ _ _ e
  simp only
  omega

theorem times {d : De α} {s : α → Nat} (h : Costs d s) : ∀ n, Costs (De.times n d) fun l => (l.map s).sum := by
  intro n
  induction n with
  | zero => exact pure rfl
  | succ n ih =>
    refine h.bind _ fun a => ih.mono (fun l => Nat.le_refl _) |>.bind _ fun l => pure ?_
    simp only [List.map_cons, List.sum_cons]
    omega

theorem timesFrom {d : Nat → De α} {s : α → Nat} (h : ∀ i, Costs (d i) s) :
    ∀ n i, Costs (De.timesFrom n i d) fun l => (l.map s).sum := by
  intro n
  induction n with
  | zero => intro i; exact pure rfl
  | succ n ih =>
    intro i
    refine (h i).bind _ fun a => (ih (i + 1)).bind _ fun l => pure ?_
    simp only [List.map_cons, List.sum_cons]
    omega

end Costs

theorem utf8_of_fromUtf8 {bs : Bytes} {s : Str} (h : fromUtf8 bs = some s) : utf8 s = bs := by
  unfold fromUtf8 at h
  obtain ⟨a, h1, rfl⟩ := Option.map_eq_some_iff.1 h
  have h2 : ((ByteArray.mk bs.toArray).utf8Decode?).isSome := by rw [h1]; rfl
  have h3 := ByteArray.utf8Encode_get_utf8Decode? (h := h2)
  simp only [h1, Option.get_some] at h3
  have h4 := congrArg (fun b => b.data.toList) h3
  simpa [List.utf8Encode, utf8] using h4

theorem costs_str (t : Target) : Costs (deStr t) strUnits := by
  refine (Costs.of_eats (eats_usize t)).bind _ fun len => ?_
  intro input rest s h
  simp only at h
  split at h
  · rename_i hle
    split at h
    · rename_i s' hs
      simp only [Res.ok.injEq, Prod.mk.injEq] at h
      obtain ⟨rfl, rfl⟩ := h
      have h1 := utf8_of_fromUtf8 hs
      have h2 : byteLen s' = len := by
        rw [← utf8_length, h1, List.length_take]; omega
      simp only [strUnits, List.length_drop]
      omega
    · cases h
  · cases h

theorem costs_f32 : Costs deF32 fun _ => 4 := by
  intro input rest a h
  unfold deF32 at h
  split at h
  · simp only [Res.ok.injEq, Prod.mk.injEq] at h
    obtain ⟨rfl, _⟩ := h
    simp; omega
  · cases h

theorem costs_vec {t : Target} {d : De α} {s : α → Nat} (h : Costs d s) : Costs (deVec t d) (listUnits s) := by
  refine (Costs.of_eats (eats_len t _)).bind _ fun len => (h.times len).mono fun l => ?_
  simp [listUnits]

theorem collect_sum {K V : Type} [DecidableEq K] (s : K × V → Nat) (l : List (K × V)) :
    ((AMap.collect l).map s).sum ≤ (l.map s).sum := by
  have hins : ∀ (m : AMap K V) (k : K) (v : V), ((AMap.insert m k v).map s).sum ≤ (m.map s).sum + s (k, v) := by
    intro m k v
    induction m with
    | nil => simp [AMap.insert, AMap.upsert]
    | cons e m ih =>
      obtain ⟨k', v'⟩ := e
      unfold AMap.insert at ih ⊢
      unfold AMap.upsert
      split
      · rename_i hk; subst hk; simp; omega
      · simp only [List.map_cons, List.sum_cons]; omega
  have : ∀ (l : List (K × V)) (m : AMap K V),
      ((l.foldl (fun m p => AMap.insert m p.1 p.2) m).map s).sum ≤ (m.map s).sum + (l.map s).sum := by
    intro l
    induction l with
    | nil => intro m; simp
    | cons e l ih =>
      intro m
      have h1 := ih (AMap.insert m e.1 e.2)
      have h2 : _ ≤ (m.map s).sum + s e := hins m e.1 e.2
      simp only [List.foldl_cons, List.map_cons, List.sum_cons]
      omega
  have := this l []
  simpa [AMap.collect] using this

theorem costs_map {K V : Type} [DecidableEq K] {t : Target} {dk : De K} {dv : De V} {sk : K → Nat} {sv : V → Nat}
    (hk : Costs dk sk) (hv : Costs dv sv) : Costs (deMap t dk dv) (listUnits fun e => sk e.1 + sv e.2) := by
  refine (Costs.of_eats (eats_len t _)).bind _ fun len => ?_
  refine Costs.bind _ (Costs.times (s := fun e : K × V => sk e.1 + sv e.2) ?_ len) fun l => Costs.pure ?_
  · exact hk.bind _ fun k => hv.bind _ fun v => Costs.pure (by simp only; omega)
  · have := collect_sum (fun e : K × V => sk e.1 + sv e.2) l
    simp only [listUnits]
    omega

theorem costs_deltas (t : Target) : ∀ (n : Nat) (prev : Option Nat), Costs (deDeltas t n prev) fun l => (l.map fun _ => 1).sum := by
  intro n
  induction n with
  | zero => intro prev; exact Costs.pure rfl
  | succ n ih =>
    intro prev
    refine (Costs.of_eats (eats_usize t)).bind _ fun parsed => ?_
    refine Costs.bind (fun _ => 0) ?_ fun item => (ih (some item)).bind _ fun l => Costs.pure ?_
    · split
      · exact Costs.lift fun _ _ => rfl
      · exact Costs.pure rfl
    · simp only [List.map_cons, List.sum_cons]; omega

theorem costs_seq (t : Target) : Costs (deSeq t) (listUnits fun _ => 1) := by
  refine (Costs.of_eats (eats_len t _)).bind _ fun len => (costs_deltas t len none).mono fun l => ?_
  simp [listUnits]

theorem units_ones (l : List α) : listUnits (fun _ => 1) l = l.length + 1 := by
  simp only [listUnits, Nat.add_right_cancel_iff]
  induction l with
  | nil => rfl
  | cons a l ih => simp only [List.map_cons, List.sum_cons, ih, List.length_cons]; omega

theorem costs_productSeq (t : Target) (existing : List Product) :
    Costs (deProductSeq t existing) fun r => listUnits (fun _ => 1) r.1 := by
  refine (costs_seq t).bind _ fun ids => ?_
  intro input rest r h
  rw [De.bind_apply, Res.bind_eq_ok] at h
  obtain ⟨⟨r', l⟩, h1, h2⟩ := h
  rw [De.lift_apply, Res.bind_eq_ok] at h1
  obtain ⟨l', h3, h4⟩ := h1
  simp only [Res.ok.injEq, Prod.mk.injEq] at h4
  obtain ⟨rfl, rfl⟩ := h4
  simp only [De.pure_apply, Res.ok.injEq, Prod.mk.injEq] at h2
  obtain ⟨rfl, rfl⟩ := h2
  have := (lookupAll_spec (Res.ofOption_eq_ok.1 h3)).1
  simp only [units_ones]
  omega

theorem costs_vendors (t : Target) : Costs (deVendors t) fun m => listUnits (fun v : Vendor => strUnits v.name) m.byId := by
  refine (Costs.of_eats (eats_len t _)).bind _ fun len => ?_
  refine Costs.bind _ (Costs.timesFrom (s := fun v : Vendor => strUnits v.name) (fun i => ?_) len 0) fun vs => Costs.pure ?_
  · exact (costs_str t).bind _ fun name => Costs.pure (by simp)
  · simp only [listUnits]; omega

theorem costs_feature (t : Target) : Costs (deFeature t) Feature.units := by
  refine Costs.bind (fun _ => 0) (fun input rest a h => ?_) fun id => ?_
  · have := ((good_u8 t).ok _ _ _ h).1.length_le
    simp only; omega
  split
  · exact (costs_vec (costs_str t)).bind _ fun _ => Costs.pure (by simp [Feature.units])
  · split
    · exact (costs_vec costs_f32).bind _ fun _ => Costs.pure (by simp [Feature.units])
    · split
      · exact (costs_vec (Costs.of_eats eats_u32)).bind _ fun _ => Costs.pure (by simp [Feature.units])
      · exact Costs.fail

theorem costs_product (t : Target) (sid : Nat) (vendors : VendorManager) : Costs (deProduct t sid vendors) Product.units := by
  refine (costs_str t).bind _ fun description => (costs_str t).bind _ fun title => (costs_str t).bind _ fun id =>
    (Costs.of_eats (eats_usize t)).bind _ fun vendorId => ?_
  refine Costs.bind (fun _ => 0) (Costs.lift fun _ _ => rfl) fun v => Costs.pure ?_
  simp only [Product.units]
  omega

theorem costs_container (t : Target) : Costs (deContainer t) Container.units := by
  refine (costs_vendors t).bind _ fun vendors => (Costs.of_eats (eats_usize t)).bind _ fun count => ?_
  refine Costs.bind _ (Costs.timesFrom (fun i => costs_product t i vendors) count 0) fun products => ?_
  refine Costs.bind _ (costs_map (costs_str t) (costs_feature t)) fun extra => Costs.pure ?_
  simp only [Container.units, listUnits]
  omega

theorem costs_node (t : Target) : ∀ fuel, Costs (deNode t fuel) GramNode.units := by
  intro fuel
  induction fuel with
  | zero => exact Costs.fail
  | succ fuel ih =>
    refine (Costs.of_eats eats_char).bind _ fun item => costs_f32.bind _ fun weight => (costs_vec ih).bind _ fun l =>
      Costs.pure ?_
    simp only [GramNode.units_mk]
    omega

theorem costs_nodeTop (t : Target) : Costs (deNodeTop t) GramNode.units :=
  fun input rest a h => costs_node t _ input rest a h

theorem costs_array {t : Target} {d : De α} {s : α → Nat} (n : Nat) (h : Costs d s) : Costs (deArray t n d) (listUnits s) := by
  refine (Costs.of_eats (eats_usize t)).bind _ fun len => ?_
  split
  · exact (h.times n).mono fun l => by simp [listUnits]
  · exact Costs.lift fun _ e => by cases e

theorem costs_gram (t : Target) (n : Nat) : Costs (deGramIndex t n) GramIndex.units := by
  refine (costs_container t).bind _ fun c => ?_
  refine Costs.bind _ (costs_map (Costs.of_eats eats_char) (costs_nodeTop t)) fun roots => ?_
  refine (Costs.of_eats (eats_len t _)).bind _ fun len => ?_
  refine Costs.bind _ (Costs.times (s := fun e : List Char × List Product =>
    listUnits (fun _ => 1) e.1 + listUnits (fun _ => 1) e.2) ?_ len) fun l => Costs.pure ?_
  · exact (costs_array n (Costs.of_eats eats_char)).bind _ fun gram => (costs_productSeq t c.products).bind _ fun r =>
      Costs.pure (by simp only; omega)
  · have := collect_sum (fun e : List Char × List Product => listUnits (fun _ => 1) e.1 + listUnits (fun _ => 1) e.2) l
    simp only [GramIndex.units, listUnits] at this ⊢
    omega

theorem costs_bool : Costs deBool fun _ => 1 := by
  intro input rest a h
  unfold deBool at h
  split at h
  · cases h
  · simp only [Res.ok.injEq, Prod.mk.injEq] at h
    obtain ⟨rfl, _⟩ := h
    simp; omega

theorem costs_category (t : Target) (existing : List Product) (next : Nat) : Costs (deCategory t existing next) fun cat =>
    1 + strUnits cat.name + listUnits (fun op => strUnits op.name + listUnits (fun _ => 1) op.content) cat.options := by
  refine costs_bool.bind _ fun exclusive => (costs_str t).bind _ fun name => (Costs.of_eats (eats_len t _)).bind _ fun len => ?_
  refine Costs.bind _ (Costs.timesFrom (s := fun op : CatOption => strUnits op.name + listUnits (fun _ => 1) op.content)
    (fun i => ?_) len next) fun options => Costs.pure ?_
  · exact (costs_str t).bind _ fun name => (costs_productSeq t existing).bind _ fun r => Costs.pure (by simp only; omega)
  · simp only [listUnits]; omega

theorem costs_categoriesLoop (t : Target) (existing : List Product) : ∀ (n next : Nat),
    Costs (deCategoriesLoop t existing n next) fun l => (l.map fun cat : Category =>
      1 + strUnits cat.name + listUnits (fun op => strUnits op.name + listUnits (fun _ => 1) op.content) cat.options).sum := by
  intro n
  induction n with
  | zero => intro next; exact Costs.pure rfl
  | succ n ih =>
    intro next
    refine (costs_category t existing next).bind _ fun cat => (ih _).bind _ fun cats => Costs.pure ?_
    simp only [List.map_cons, List.sum_cons]
    omega

theorem costs_classic (t : Target) (c : Container) : Costs (deClassic t c) Classic.units := by
  refine Costs.bind (fun l => listUnits (fun cat : Category => 1 + strUnits cat.name +
    listUnits (fun op => strUnits op.name + listUnits (fun _ => 1) op.content) cat.options) l) ?_ fun categories => ?_
  · refine (Costs.of_eats (eats_len t _)).bind _ fun len => (costs_categoriesLoop t c.products len 0).mono fun l => ?_
    simp [listUnits]
  refine Costs.bind (fun l => listUnits (fun tag : Tag => strUnits tag.name + listUnits (fun _ => 1) tag.products) l) ?_
    fun tags => ?_
  · refine (Costs.of_eats (eats_len t _)).bind _ fun len => (Costs.timesFrom (s := fun tag : Tag =>
      strUnits tag.name + listUnits (fun _ => 1) tag.products) (fun i => ?_) len 0).mono fun l => ?_
    · exact (costs_str t).bind _ fun name => (costs_productSeq t c.products).bind _ fun r => Costs.pure (by simp only; omega)
    · simp [listUnits]
  refine Costs.bind _ (costs_map (costs_str t) (costs_vec (Costs.of_eats (eats_usize t)))) fun order => Costs.pure ?_
  simp only [Classic.units]
  omega

/-- Whatever the bytes, an index loaded from them has no more text, numbers, nodes and posting entries than there are
bytes. -/
theorem C62 {t : Target} {n : Nat} {bytes : Bytes} {ix : GramIndex Char} {cl : Classic}
    (h : deserializeAll t n bytes = .ok (ix, cl)) : ix.units + cl.units ≤ bytes.length := by
  rw [deserializeAll_eq, Res.bind_eq_ok] at h
  obtain ⟨⟨rest, r⟩, h1, h2⟩ := h
  cases h2
  have : Costs (deBoth t n) fun r => r.1.units + r.2.units := by
    refine (costs_gram t n).bind _ fun ix => (costs_classic t ix.container).bind _ fun cl => Costs.pure ?_
    simp only; omega
  have := this _ _ _ h1
  simp only at this
  omega

theorem le_listUnits {f : α → Nat} {k : Nat} (h : ∀ a, k ≤ f a) (l : List α) : k * l.length ≤ listUnits f l := by
  unfold listUnits
  induction l with
  | nil => simp
  | cons a l ih =>
    have := h a
    simp only [List.length_cons, List.map_cons, List.sum_cons, Nat.mul_add]
    omega

/-- So a file of `b` bytes has at most `b / 4` products, and `b` bytes of text in them. -/
theorem C62_products {t : Target} {n : Nat} {bytes : Bytes} {ix : GramIndex Char} {cl : Classic}
    (h : deserializeAll t n bytes = .ok (ix, cl)) :
    4 * ix.container.products.length ≤ bytes.length ∧
    (ix.container.products.map fun p => byteLen p.description + byteLen p.title + byteLen p.id).sum +
      4 * ix.container.products.length ≤ bytes.length := by
  have h1 := C62 h
  have h2 : ∀ l : List Product, listUnits Product.units l =
      (l.map fun p => byteLen p.description + byteLen p.title + byteLen p.id).sum + 4 * l.length + 1 := by
    intro l
    unfold listUnits
    induction l with
    | nil => rfl
    | cons p l ih =>
      simp only [List.map_cons, List.sum_cons, List.length_cons] at ih ⊢
      simp only [Product.units, strUnits] at ih ⊢
      omega
  have h3 := h2 ix.container.products
  simp only [GramIndex.units, Container.units] at h1
  omega

/-- A file of 24 bytes with a vendor, a product, a tree and a posting list, worth exactly 24 units. -/
example (t : Target) (h : t.Real) (hr : ∀ what m, m ≤ 2 → t.reserves what m = true) :
    ∃ ix cl, deserializeAll t 1 [1, 0, 1, 0, 0, 0, 0, 0, 1, 116, 116, 63, 128, 0, 0, 0, 1, 1, 116, 1, 0, 0, 0, 0] =
      .ok (ix, cl) ∧ ix.container.products.length = 1 ∧ ix.units + cl.units = 24 := by
  rw [reserves_two hr]
  obtain ⟨bits, checks, reserves⟩ := t
  rcases h with h | h <;> simp only at h <;> subst h
  · exact ⟨_, _, rfl, rfl, by simp [GramIndex.units, Container.units, Classic.units, listUnits, strUnits, byteLen,
      Product.units, AMap.collect, AMap.insert, AMap.upsert, GramNode.units]⟩
  · exact ⟨_, _, rfl, rfl, by simp [GramIndex.units, Container.units, Classic.units, listUnits, strUnits, byteLen,
      Product.units, AMap.collect, AMap.insert, AMap.upsert, GramNode.units]⟩

end Idx
