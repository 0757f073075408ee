import Verif.Model.Sorting
import Verif.Lemmas.Alike
import Verif.Lemmas.Heap
import Verif.Lemmas.Round
import Verif.Lemmas.Run
import Verif.Model.ParseF32
import Verif.Props.Engine
import Verif.Props.Reload
/-!
C101: what does not depend on the sorting algorithm of the standard library, and what does.
-/
namespace Idx

/-! ## Sorting algorithms -/

theorem eq_of_sorted_of_filter_on {α : Type} {le : α → α → Bool} (S : α → Prop) (hr : ∀ a, S a → le a a = true) :
    ∀ (l m : List α), (∀ a ∈ l, S a) → (∀ a ∈ m, S a) → l.Pairwise (fun a b => le a b = true) →
      m.Pairwise (fun a b => le a b = true) →
      (∀ x, S x → l.filter (equivTo le x) = m.filter (equivTo le x)) → l = m := by
  intro l
  induction l with
  | nil =>
    intro m _ hS _ _ hf
    cases m with
    | nil => rfl
    | cons b m =>
      have hb := hS b (by simp)
      have := hf b hb
      have hbb : equivTo le b b = true := by simp [equivTo, hr b hb]
      simp [hbb] at this
  | cons a l ih =>
    intro m hSl hSm hl hm hf
    have ha := hSl a (by simp)
    have haa : equivTo le a a = true := by simp [equivTo, hr a ha]
    cases m with
    | nil =>
      have := hf a ha
      simp [haa] at this
    | cons b m =>
      have hb := hSm b (by simp)
      rw [List.pairwise_cons] at hl hm
      have hbb : equivTo le b b = true := by simp [equivTo, hr b hb]
      have ha' : a ∈ b :: m := by
        have h' : a ∈ (a :: l).filter (equivTo le a) := by simp [haa]
        rw [hf a ha] at h'
        exact (List.mem_filter.1 h').1
      have hb' : b ∈ a :: l := by
        have h' : b ∈ (b :: m).filter (equivTo le b) := by simp [hbb]
        rw [← hf b hb] at h'
        exact (List.mem_filter.1 h').1
      have hba : le b a = true := by
        rcases List.mem_cons.1 ha' with rfl | h
        · exact hr _ ha
        · exact hm.1 a h
      have hab : le a b = true := by
        rcases List.mem_cons.1 hb' with rfl | h
        · exact hr _ hb
        · exact hl.1 b h
      have heq : a = b := by
        have := hf a ha
        rw [List.filter_cons, List.filter_cons, if_pos haa, if_pos (by simp [equivTo, hab, hba])] at this
        exact (List.cons.inj this).1
      subst heq
      congr 1
      refine ih m (fun x hx => hSl x (by simp [hx])) (fun x hx => hSm x (by simp [hx])) hl.2 hm.2 fun x hx => ?_
      have := hf x hx
      rw [List.filter_cons, List.filter_cons] at this
      split at this
      · exact (List.cons.inj this).2
      · exact this

/-- The comparison as used by the model's sort. -/
abbrev leOf (cmp : α → α → Ordering) (a b : α) : Bool := cmp a b != .gt

theorem Consistent.total {α : Type} {cmp : α → α → Ordering} {l : List α} (h : Consistent cmp l) (a b : α) (ha : a ∈ l)
    (hb : b ∈ l) : leOf cmp a b = true ∨ leOf cmp b a = true := by
  have := h.1 a ha b hb
  unfold leOf
  rw [this]
  cases cmp a b <;> simp

theorem Consistent.trans' {α : Type} {cmp : α → α → Ordering} {l : List α} (h : Consistent cmp l) (a b c : α) (ha : a ∈ l)
    (hb : b ∈ l) (hc : c ∈ l) (h1 : leOf cmp a b = true) (h2 : leOf cmp b c = true) : leOf cmp a c = true := by
  have := h.2 a ha b hb c hc (by simpa [leOf] using h1) (by simpa [leOf] using h2)
  simpa [leOf] using this

theorem Consistent.equiv {α : Type} {cmp : α → α → Ordering} {l : List α} (h : Consistent cmp l) (a b : α) (ha : a ∈ l)
    (hb : b ∈ l) : equivTo (leOf cmp) a b = (cmp a b == .eq) := by
  have := h.1 a ha b hb
  unfold equivTo leOf
  rw [this]
  cases cmp a b <;> rfl

/-- A consistent comparison: every algorithm returns what the model's sort returns. -/
theorem SortAlg.eq (s : SortAlg) {α : Type} {cmp : α → α → Ordering} {l : List α} (h : Consistent cmp l) :
    s.sort cmp l = .ok (stableSort (fun a b => cmp a b != .gt) l) := by
  obtain ⟨r, hr, hs, hf⟩ := s.sorts cmp l h
  have hp := s.perm cmp l r hr
  rw [hr]
  congr 1
  refine eq_of_sorted_of_filter_on (le := leOf cmp) (fun a => a ∈ l)
    (fun a ha => by rcases h.total a a ha ha with h' | h' <;> exact h') r _ (fun a ha => hp.mem_iff.1 ha)
    (fun a ha => mem_stableSort.1 ha) (hs.imp (by simp [leOf]))
    (stableSort_sorted_on (fun a => a ∈ l) h.total h.trans' l (fun _ hb => hb)) ?_
  intro x hx
  have key : ∀ m : List α, (∀ a ∈ m, a ∈ l) → m.filter (equivTo (leOf cmp) x) = m.filter (fun b => cmp x b == .eq) :=
    fun m hm => List.filter_congr fun b hb => h.equiv x b hx (hm b hb)
  rw [stableSort_filter_on (fun a => a ∈ l) h.total h.trans' x hx l (fun _ hb => hb), key r (fun a ha => hp.mem_iff.1 ha),
    key l (fun _ ha => ha), hf x hx]

theorem sort_spec {α : Type} {cmp : α → α → Ordering} {l : List α} (h : Consistent cmp l) :
    (stableSort (leOf cmp) l).Pairwise (fun a b => cmp a b ≠ .gt) ∧
      ∀ a ∈ l, (stableSort (leOf cmp) l).filter (fun b => cmp a b == .eq) = l.filter (fun b => cmp a b == .eq) := by
  refine ⟨(stableSort_sorted_on (fun a => a ∈ l) h.total h.trans' l (fun _ hb => hb)).imp (by simp [leOf]), ?_⟩
  intro a ha
  have := stableSort_filter_on (fun a => a ∈ l) h.total h.trans' a ha l (fun _ hb => hb)
  rw [List.filter_congr (q := equivTo (leOf cmp) a) fun b hb => (h.equiv a b ha (mem_stableSort.1 hb)).symm, this]
  exact List.filter_congr fun b hb => h.equiv a b ha hb

/-- The sort of the rest of the model: it never panics. -/
def SortAlg.tolerant : SortAlg where
  sort cmp l := .ok (stableSort (leOf cmp) l)
  perm cmp l r h := by cases h; exact stableSort_perm _ _
  why cmp l w h := by cases h
  sorts cmp l h := ⟨_, rfl, sort_spec h⟩

open Classical in
/-- An algorithm that notices every inconsistent comparison. -/
noncomputable def SortAlg.strict : SortAlg where
  sort cmp l := if Consistent cmp l then .ok (stableSort (leOf cmp) l) else .error .explicit
  perm cmp l r h := by
    split at h
    · cases h; exact stableSort_perm _ _
    · cases h
  why cmp l w h := by
    split at h
    · cases h
    · cases h; rfl
  sorts cmp l h := ⟨_, if_pos h, sort_spec h⟩

/-! ## Which comparisons are consistent -/

theorem natCmp_le (m n : Nat) : (compare m n != .gt) = decide (m ≤ n) := by
  by_cases h : m ≤ n
  · simp [h, Nat.compare_ne_gt.2 h]
  · have : compare m n = .gt := Nat.compare_eq_gt.2 (by omega)
    simp [this]; omega

theorem consistent_nat {α : Type} (f : α → Nat) (l : List α) : Consistent (fun a b => compare (f a) (f b)) l := by
  refine ⟨fun a _ b _ => (Nat.compare_swap (f a) (f b)).symm, fun a _ b _ c _ h1 h2 => ?_⟩
  rw [Nat.compare_ne_gt] at *
  omega

theorem SortAlg.nat (s : SortAlg) {α : Type} (f : α → Nat) (l : List α) :
    s.sort (fun a b => compare (f a) (f b)) l = .ok (stableSort (fun a b => decide (f a ≤ f b)) l) := by
  rw [s.eq (consistent_nat f l)]
  simp only [natCmp_le]

theorem consistent_str {α : Type} (f : α → Str) (l : List α) : Consistent (fun a b => strCmp (f a) (f b)) l :=
  ⟨fun _ _ _ _ => bytesCmp_swap _ _, fun _ _ _ _ _ _ => bytesCmp_le_trans _ _ _⟩

/-- Floats that `partial_cmp(..).unwrap_or(Equal)` orders consistently: none of them is NaN, or all that are not NaN
are equal. -/
def Comparable (l : List F32) : Prop :=
  (∀ x ∈ l, x.val ≠ .nan) ∨ ∀ x ∈ l, ∀ y ∈ l, x.val ≠ .nan → y.val ≠ .nan → F32.lt x y = false

theorem cmpOrEq_nan_left {x : F32} (y : F32) (h : x.val = .nan) : F32.cmpOrEq x y = .eq := by
  simp [F32.cmpOrEq, F32.partialCmp, h]

theorem cmpOrEq_nan_right (x : F32) {y : F32} (h : y.val = .nan) : F32.cmpOrEq x y = .eq := by
  unfold F32.cmpOrEq F32.partialCmp
  cases hx : x.val <;> simp [h]

theorem cmpOrEq_swap (x y : F32) : F32.cmpOrEq y x = (F32.cmpOrEq x y).swap := by
  by_cases hx : x.val = .nan
  · rw [cmpOrEq_nan_left y hx, cmpOrEq_nan_right y hx]; rfl
  · by_cases hy : y.val = .nan
    · rw [cmpOrEq_nan_left x hy, cmpOrEq_nan_right x hy]; rfl
    · rw [F32.cmpOrEq_eq hx hy, F32.cmpOrEq_eq hy hx]
      cases h1 : F32.lt x y with
      | true => simp [F32.lt_asymm h1]
      | false => cases F32.lt y x <;> simp

/-- A comparison and its reverse are consistent together. -/
theorem consistent_reverse {α : Type} (cmp : α → α → Ordering) (l : List α) :
    Consistent (fun a b => (cmp a b).swap) l ↔ Consistent cmp l := by
  have key : ∀ cmp : α → α → Ordering, Consistent cmp l → Consistent (fun a b => (cmp a b).swap) l := by
    intro cmp h
    refine ⟨fun a ha b hb => by dsimp only; rw [h.1 a ha b hb], fun a ha b hb c hc h1 h2 => ?_⟩
    show (cmp a c).swap ≠ .gt
    rw [← h.1 a ha c hc]
    refine h.2 c hc b hb a ha ?_ ?_
    · rw [h.1 b hb c hc]; exact h2
    · rw [h.1 a ha b hb]; exact h1
  refine ⟨fun h => ?_, key cmp⟩
  have := key _ h
  simpa using this

/-- Exactly which floats are ordered consistently. -/
theorem C101_comparable {α : Type} (f : α → F32) (l : List α) :
    Consistent (fun a b => F32.cmpOrEq (f a) (f b)) l ↔ Comparable (l.map f) := by
  constructor
  · intro h
    by_cases hn : ∀ x ∈ l.map f, x.val ≠ .nan
    · exact .inl hn
    · right
      obtain ⟨z, hz⟩ := Classical.not_forall.1 hn
      obtain ⟨hz, hnan⟩ := Classical.not_imp.1 hz
      have hnan := Classical.not_not.1 hnan
      obtain ⟨c, hc, rfl⟩ := List.mem_map.1 hz
      intro x hx y hy h1 h2
      obtain ⟨a, ha, rfl⟩ := List.mem_map.1 hx
      obtain ⟨b, hb, rfl⟩ := List.mem_map.1 hy
      have := h.2 b hb c hc a ha (by dsimp only; rw [cmpOrEq_nan_right _ hnan]; decide)
        (by dsimp only; rw [cmpOrEq_nan_left _ hnan]; decide)
      exact (F32.cmpOrEq_ne_gt h2 h1).1 this
  · intro h
    refine ⟨fun a _ b _ => cmpOrEq_swap _ _, ?_⟩
    rcases h with h | h
    · have hn : ∀ a ∈ l, ¬ (f a).IsNan := fun a ha => h _ (List.mem_map.2 ⟨a, ha, rfl⟩)
      intro a ha b hb c hc h1 h2
      dsimp only at h1 h2 ⊢
      rw [F32.cmpOrEq_ne_gt (hn a ha) (hn b hb)] at h1
      rw [F32.cmpOrEq_ne_gt (hn b hb) (hn c hc)] at h2
      rw [F32.cmpOrEq_ne_gt (hn a ha) (hn c hc)]
      exact F32.le_trans (hn a ha) (hn b hb) (hn c hc) h1 h2
    · intro a ha b hb c hc _ _
      dsimp only
      by_cases h1 : (f a).val = .nan
      · rw [cmpOrEq_nan_left _ h1]; decide
      · by_cases h2 : (f c).val = .nan
        · rw [cmpOrEq_nan_right _ h2]; decide
        · rw [F32.cmpOrEq_ne_gt h1 h2]
          exact h _ (List.mem_map.2 ⟨c, hc, rfl⟩) _ (List.mem_map.2 ⟨a, ha, rfl⟩) h2 h1

/-- The same for the reversed comparison. -/
theorem comparable_reverse {α : Type} (f : α → F32) (l : List α) :
    Consistent (fun a b => (F32.cmpOrEq (f a) (f b)).swap) l ↔ Comparable (l.map f) := by
  rw [consistent_reverse (fun a b => F32.cmpOrEq (f a) (f b)), C101_comparable]

theorem Comparable.perm {l m : List F32} (h : l.Perm m) (hl : Comparable l) : Comparable m := by
  rcases hl with hl | hl
  · exact .inl fun x hx => hl x (h.mem_iff.2 hx)
  · exact .inr fun x hx y hy => hl x (h.mem_iff.2 hx) y (h.mem_iff.2 hy)

/-! ## The weights of the children of a node -/

namespace F32

theorem val_ofRatio_cases (neg : Bool) (a b : Nat) :
    (∃ m, (ofRatio neg a b).val = .fin neg m) ∨ (ofRatio neg a b).val = .inf neg := by
  rcases Classical.em (roundMag a b < 2 ^ 277) with h | h
  · exact .inl ⟨_, val_ofRatio neg _ _ h⟩
  · exact .inr (val_ofRatio_inf neg _ _ h)

theorem val_ofNat_cases (k : Nat) : (∃ m, (ofNat k).val = .fin false m) ∨ (ofNat k).val = .inf false :=
  val_ofRatio_cases _ _ _

theorem ofRatio_notNan (neg : Bool) (a b : Nat) : (ofRatio neg a b).val ≠ .nan := by
  rcases val_ofRatio_cases neg a b with ⟨m, h⟩ | h <;> rw [h] <;> exact nofun

theorem val_nan : nan.val = .nan := by decide +kernel

theorem div_zero {x y : F32} (hx : (∃ m, x.val = .fin false m) ∨ x.val = .inf false) (hy : y.val = .fin false 0)
    (h : (div x y).val ≠ .nan) : (div x y).val = .inf false := by
  revert h
  unfold div
  rw [hy]
  rcases hx with ⟨m, hx⟩ | hx
  · rw [hx]
    by_cases hm : m = 0
    · simp [hm, val_nan]
    · simp [hm, val_inf]
  · rw [hx]
    simp [val_inf]

theorem div_pos {x y : F32} {n : Nat} (hx : (∃ m, x.val = .fin false m) ∨ x.val = .inf false) (hy : y.val = .fin false n)
    (hn : n ≠ 0) : (div x y).val ≠ .nan := by
  rcases hx with ⟨m, hx⟩ | hx
  · rw [div_fin hx hy hn]
    exact ofRatio_notNan _ _ _
  · unfold div
    rw [hy, hx]
    simp [val_inf]

theorem div_inf {x y : F32} (hx : (∃ m, x.val = .fin false m) ∨ x.val = .inf false) (hy : y.val = .inf false)
    (h : (div x y).val ≠ .nan) : (div x y).val = .fin false 0 := by
  revert h
  unfold div
  rw [hy]
  rcases hx with ⟨m, hx⟩ | hx
  · rw [hx]
    simp [val_pack_zero]
  · rw [hx]
    simp [val_nan]

/-- Quotients of counts by one count: none is NaN, or all that are not NaN have one value. -/
theorem ofNat_div_cases (b : Nat) : (∀ a, (div (ofNat a) (ofNat b)).val ≠ .nan) ∨
    ∃ v, Val.lt v v = false ∧ ∀ a, (div (ofNat a) (ofNat b)).val ≠ .nan → (div (ofNat a) (ofNat b)).val = v := by
  rcases val_ofNat_cases b with ⟨n, hb⟩ | hb
  · by_cases hn : n = 0
    · subst hn
      exact .inr ⟨.inf false, rfl, fun a => div_zero (val_ofNat_cases a) hb⟩
    · exact .inl fun a => div_pos (val_ofNat_cases a) hb hn
  · exact .inr ⟨.fin false 0, rfl, fun a => div_inf (val_ofNat_cases a) hb⟩

end F32

theorem comparable_weights {l : List F32} (k : Nat) (h : ∀ x ∈ l, ∃ a, x = occurancesToWeight k a) : Comparable l := by
  rcases F32.ofNat_div_cases k with hk | ⟨v, hv, hk⟩
  · left
    intro x hx
    obtain ⟨a, rfl⟩ := h x hx
    exact hk a
  · right
    intro x hx y hy h1 h2
    obtain ⟨a, rfl⟩ := h x hx
    obtain ⟨b, rfl⟩ := h y hy
    unfold F32.lt
    rw [show (occurancesToWeight k a).val = v from hk a h1, show (occurancesToWeight k b).val = v from hk b h2, hv]

theorem mapE_ok {α β : Type} {f : α → Except Panic β} {g : α → β} : ∀ {l : List α}, (∀ a ∈ l, f a = .ok (g a)) →
    mapE f l = .ok (l.map g) := by
  intro l
  induction l with
  | nil => intro _; rfl
  | cons a l ih =>
    intro h
    rw [mapE, h a (by simp), ih fun b hb => h b (by simp [hb])]
    rfl

section Tree
variable {G : Type} [DecidableEq G] [RDefault G]

/-- Sorting the children of a node never depends on the algorithm. -/
theorem immutalizeS_eq (s : SortAlg) (o : HashOrd) (path : List G) (k : Nat) : ∀ m : MNode G,
    immutalizeS s o path k m = .ok (immutalize o path k m)
  | .mk item occ items => by
    have ih : ∀ c ∈ items, immutalizeS s o (path ++ [item]) occ c = .ok (immutalize o (path ++ [item]) occ c) :=
      fun c _ => immutalizeS_eq s o (path ++ [item]) occ c
    rw [immutalizeS, immutalize]
    rw [mapE_ok (g := fun x => immutalize o (path ++ [item]) occ x.1) fun x _ => ih x.1 x.2]
    show (s.sort _ _ >>= _) = _
    rw [s.eq]
    · rfl
    · have hc : Comparable ((o.order (path ++ [item])
          (items.attach.map fun x => immutalize o (path ++ [item]) occ x.1)).map GramNode.weight) := by
        apply comparable_weights occ
        intro x hx
        obtain ⟨c, hc, rfl⟩ := List.mem_map.1 hx
        obtain ⟨m, _, rfl⟩ := List.mem_map.1 ((o.perm _ _).mem_iff.1 hc)
        exact ⟨_, immutalize_weight _ _ _ _⟩
      exact (comparable_reverse GramNode.weight _).2 hc

/-- Neither does building the n-gram index, whatever is indexed. -/
theorem C101_index (s : SortAlg) (t : Target) (o : HashOrd) (n : Nat) (feeds : List (List G × Product))
    (c : Container) : indexFromS s t o n feeds c = .ok (indexFrom t o n feeds c) := by
  unfold indexFromS indexFrom
  simp only
  rw [mapE_ok (g := fun m => (m.item, immutalize o [] ((feeds.foldl (buildFeed n) ([], [])).1.map (·.occ)).sum m))
    (fun m _ => by rw [immutalizeS_eq]; rfl)]
  show (mapE _ _ >>= _) = _
  rw [mapE_ok (g := fun e => (e.1, stableSort (fun a b : Product => decide (a.sid ≤ b.sid)) e.2))
    (fun e _ => by rw [s.nat]; rfl)]
  rfl

end Tree

/-! ## Writing -/

theorem serSeqS_eq (s : SortAlg) (l : List Nat) : serSeqS s l = .ok (serSeq l) := by
  unfold serSeqS serSeq
  rw [show s.sort compare l = _ from s.nat (fun a => a) l]
  rfl

theorem serVendorsS_eq (s : SortAlg) (o : HashOrd) (m : VendorManager) : serVendorsS s o m = .ok (serVendors o m) := by
  unfold serVendorsS serVendors
  rw [s.nat]
  rfl

theorem serContainerS_eq (s : SortAlg) (o : HashOrd) (c : Container) : serContainerS s o c = .ok (serContainer o c) := by
  unfold serContainerS
  rw [serVendorsS_eq]
  rfl

theorem serTagS_eq (s : SortAlg) (t : Tag) : serTagS s t = .ok (serTag t) := by
  unfold serTagS
  rw [serSeqS_eq]
  rfl

theorem flatMap_flatten {α : Type} (f : α → Bytes) (l : List α) : (l.map f).flatten = l.flatMap f := by
  rw [List.flatMap_def]

theorem serTagsS_eq (s : SortAlg) (l : List Tag) : serTagsS s l = .ok (serTags l) := by
  unfold serTagsS
  rw [mapE_ok fun t _ => serTagS_eq s t]
  show Except.ok _ = _
  rw [flatMap_flatten]
  rfl

theorem serCatOptionS_eq (s : SortAlg) (c : CatOption) : serCatOptionS s c = .ok (serCatOption c) := by
  unfold serCatOptionS
  rw [serSeqS_eq]
  rfl

theorem serCategoryS_eq (s : SortAlg) (c : Category) : serCategoryS s c = .ok (serCategory c) := by
  unfold serCategoryS
  rw [mapE_ok fun t _ => serCatOptionS_eq s t]
  show Except.ok _ = _
  rw [flatMap_flatten]
  rfl

theorem serCategoriesS_eq (s : SortAlg) (l : List Category) : serCategoriesS s l = .ok (serCategories l) := by
  unfold serCategoriesS
  rw [mapE_ok fun t _ => serCategoryS_eq s t]
  show Except.ok _ = _
  rw [flatMap_flatten]
  rfl

theorem serClassicS_eq (s : SortAlg) (o : HashOrd) (c : Classic) : serClassicS s o c = .ok (serClassic o c) := by
  unfold serClassicS
  rw [serCategoriesS_eq, serTagsS_eq]
  rfl

theorem serPostingS_eq (s : SortAlg) (e : List Char × List Product) : serPostingS s e = .ok (serPosting e) := by
  unfold serPostingS
  rw [serSeqS_eq]
  rfl

theorem serGramIndexS_eq (s : SortAlg) (o : HashOrd) (ix : GramIndex Char) :
    serGramIndexS s o ix = .ok (serGramIndex o ix) := by
  unfold serGramIndexS
  rw [serContainerS_eq, mapE_ok fun t _ => serPostingS_eq s t]
  show Except.ok _ = _
  rw [flatMap_flatten]
  rfl

/-- Writing never depends on the algorithm. -/
theorem C101_write (s : SortAlg) (o : HashOrd) (ix : GramIndex Char) (cl : Classic) :
    serializeAllS s o ix cl = .ok (serializeAll o ix cl) := by
  unfold serializeAllS
  rw [serGramIndexS_eq, serClassicS_eq]
  rfl

/-- Neither does ordering found products by a stored order. -/
theorem C101_order (s : SortAlg) (order results : List Nat) : sortByOrderS s order results = sortByOrder order results := by
  unfold sortByOrderS sortByOrder
  split
  · rfl
  · cases h : orderKeys order results with
    | error w => rfl
    | ok keyed =>
      show (s.sort (fun a b => compare a.1 b.1) keyed >>= _) = _
      rw [s.nat (fun a : Nat × Nat => a.1)]
      rfl

/-! ## Searching -/

theorem exportS_cases (s : SortAlg) (o : HashOrd) (r : Ranker) :
    (Comparable ((r.export o).map (·.2)) → r.exportS s o = .ok (r.export o)) ∧
    (r.exportS s o = .error .explicit ∨ ∃ l, r.exportS s o = .ok l ∧ l.Perm (r.export o)) := by
  refine ⟨fun h => ?_, ?_⟩
  · refine s.eq ((comparable_reverse (fun a : Product × F32 => a.2) _).2 ?_)
    exact h.perm ((stableSort_perm _ _).map _)
  · unfold Ranker.exportS
    cases h : s.sort (fun a b : Product × F32 => (F32.cmpOrEq a.2 b.2).swap) ((o.order "results" r).map (·.2)) with
    | error w => exact .inl (by rw [s.why _ _ w h])
    | ok l => exact .inr ⟨l, rfl, (s.perm _ _ l h).trans (stableSort_perm _ _).symm⟩

theorem exportS_strict (o : HashOrd) (r : Ranker) (h : ¬ Comparable ((r.export o).map (·.2))) :
    r.exportS .strict o = .error .explicit := by
  refine if_neg fun hc => h ?_
  exact ((comparable_reverse (fun a : Product × F32 => a.2) _).1 hc).perm ((stableSort_perm _ _).map _).symm

section Search
variable {G : Type} [DecidableEq G] [RDefault G]

/-- What a search does on top of any sorting algorithm: it panics for the reasons it panics in the model; with
comparable confidences it returns what the model returns; otherwise it panics in the algorithm, or returns the same
results in some order. -/
theorem C101_search (s : SortAlg) (o : HashOrd) (ix : GramIndex G) (n : Nat) (query : List G) :
    (∀ w, ix.search o n query = .error w → ix.searchS s o n query = .error w) ∧
    ∀ l, ix.search o n query = .ok l →
      (Comparable (l.map (·.2)) → ix.searchS s o n query = .ok l) ∧
      (ix.searchS s o n query = .error .explicit ∨ ∃ l', ix.searchS s o n query = .ok l' ∧ l'.Perm l) := by
  unfold GramIndex.search GramIndex.searchS
  cases query.foldlM (ix.searchStep n) (([] : Ranker), List.replicate n dflt) with
  | error w => exact ⟨fun _ h => h, fun _ h => by cases h⟩
  | ok st =>
    refine ⟨(fun _ h => by cases h), fun l h => ?_⟩
    cases h
    exact exportS_cases s o st.1

/-- Exactly the searches with comparable confidences do not depend on the algorithm. -/
theorem C101_search_iff (o : HashOrd) (ix : GramIndex G) (n : Nat) (query : List G) (l : List (Product × F32))
    (h : ix.search o n query = .ok l) :
    (∀ s : SortAlg, ix.searchS s o n query = .ok l) ↔ Comparable (l.map (·.2)) := by
  refine ⟨fun hs => Classical.byContradiction fun hc => ?_, fun hc s => ((C101_search s o ix n query).2 l h).1 hc⟩
  have := hs .strict
  revert this h
  unfold GramIndex.search GramIndex.searchS
  cases query.foldlM (ix.searchStep n) (([] : Ranker), List.replicate n dflt) with
  | error w => intro h; cases h
  | ok st =>
    intro h h'
    cases h
    have e := exportS_strict o st.1 hc
    rw [show (st.1.exportS .strict o) = _ from h'] at e
    cases e

end Search

/-- No confidence of a search of a built index is NaN. -/
theorem C101_built {t o lower parse n input ix cl} (h : Searchable t o lower parse n input ix cl) (s : SortAlg)
    (o' : HashOrd) (query : List Char) : ix.searchS s o' n query = ix.search o' n query := by
  obtain ⟨l, hl⟩ := C48_search_total o' ix h.pos h.le query
  rw [hl]
  refine ((C101_search s o' ix n query).2 l hl).1 (.inl ?_)
  intro x hx
  obtain ⟨r, hr, rfl⟩ := List.mem_map.1 hx
  exact (h.result_nonNeg hl (p := r.1) (c := r.2) hr).notNan

/-- Nor of a search of a built index that was written and loaded. -/
theorem C101_reloaded {t o lower parse n input ix cl} (h : Searchable t o lower parse n input ix cl) (o' : HashOrd)
    (t' : Target) (hf : Fits t' (serializeAll o' ix cl).length) {ix' : GramIndex Char} {cl' : Classic}
    (hl : deserializeAll t' n (serializeAll o' ix cl) = .ok (ix', cl')) (s : SortAlg) (o₁ : HashOrd)
    (query : List Char) : ix'.searchS s o₁ n query = ix'.search o₁ n query := by
  obtain ⟨ix₁, cl₁, e, hp⟩ := C11 h.pos h.le h.built o' t' hf
  rw [hl] at e
  cases e
  obtain ⟨l, hl⟩ := C48_search_total o₁ ix h.pos h.le query
  obtain ⟨l', hl'⟩ := C48_search_total o₁ ix' h.pos h.le query
  have hperm := hp o₁ o₁ query l l' hl hl'
  rw [hl']
  refine ((C101_search s o₁ ix' n query).2 l' hl').1 (.inl ?_)
  intro x hx
  obtain ⟨r, hr, rfl⟩ := List.mem_map.1 hx
  have := hperm.mem_iff.1 hr
  obtain ⟨y, hy, rfl⟩ := List.mem_map.1 this
  exact (h.result_nonNeg hl (p := y.1) (c := y.2) hy).notNan

/-- A whole search call, if the search of the index does not depend on the algorithm. -/
theorem C101_engine (s : SortAlg) (mode : PanicMode) (o : HashOrd) (lower : Char → List Char) (e : Engine) (input : Str)
    (cats : CategoryHandler) (tags : TagHandler) (order : Option Str) (filter : List (Str × JsValue))
    (h : ∀ ix, e.index.lockOk = .ok (some ix) →
      ix.searchS s o ngramIndexSize (input.flatMap lower) = ix.search o ngramIndexSize (input.flatMap lower)) :
    e.searchS s mode o lower input cats tags order filter = e.search mode o lower input cats tags order filter := by
  unfold Engine.searchS Engine.search
  cases parseFilters filter with
  | none => rfl
  | some filters =>
    cases hi : e.index.lockOk with
    | error w => rfl
    | ok v =>
      cases v with
      | none => rfl
      | some ix =>
        have : searchIdsS s o lower ix input cats tags filters = searchIds o lower ix input cats tags filters := by
          unfold searchIdsS searchIds
          rw [h ix hi]
        simp only [this, C101_order]
        rfl

/-- With a free lock and confidences that are not comparable, an algorithm that notices panics, and the lock of the index
is lost. -/
theorem C101_engine_strict (mode : PanicMode) (o : HashOrd) (lower : Char → List Char) (e : Engine) (input : Str)
    (cats : CategoryHandler) (tags : TagHandler) (order : Option Str) (filter : List (Str × JsValue))
    {filters : List FeatureFilter} (hf : parseFilters filter = some filters) {ix : GramIndex Char}
    (hi : e.index.lockOk = .ok (some ix)) {l : List (Product × F32)}
    (hl : ix.search o ngramIndexSize (input.flatMap lower) = .ok l) (hc : ¬ Comparable (l.map (·.2))) :
    e.searchS .strict mode o lower input cats tags order filter =
      ({ e with index := e.index.panicked mode }, .error .explicit) := by
  have hs : ix.searchS .strict o ngramIndexSize (input.flatMap lower) = .error .explicit := by
    revert hl
    unfold GramIndex.search GramIndex.searchS
    cases (input.flatMap lower).foldlM (ix.searchStep ngramIndexSize) (([] : Ranker), List.replicate ngramIndexSize dflt) with
    | error w => intro h; cases h
    | ok st =>
      intro h
      cases h
      exact exportS_strict o st.1 hc
  have : searchIdsS .strict o lower ix input cats tags filters = .error .explicit := by
    unfold searchIdsS
    rw [hs]
    rfl
  unfold Engine.searchS
  simp only [hf, hi, this]

/-! ## Orders -/

theorem fillOrder_perm {data sorted : List (T × Nat)} {n : Nat} (hidx : data.map (·.2) = List.range n)
    (hp : sorted.Perm data) :
    ∃ r, fillOrder (sorted.map (·.2)) 0 (List.replicate data.length 0) = .ok r ∧ r.Perm (List.range n) := by
  have hperm : (sorted.map (·.2)).Perm (List.range n) := by
    rw [← hidx]; exact hp.map _
  have hnd : (sorted.map (·.2)).Nodup := hperm.nodup_iff.2 List.nodup_range
  have hlen : data.length = n := by have := congrArg List.length hidx; simpa using this
  obtain ⟨r, h1, h2, h3, _⟩ := fillOrder_spec (sorted.map (·.2)) 0 (List.replicate data.length 0) hnd (by
      intro s hs
      have := (hperm.mem_iff).1 hs
      simpa [hlen] using this)
  have hrl : r.length = n := by simpa [hlen] using h2
  refine ⟨r, h1, ?_⟩
  have hmap : (sorted.map (·.2)).map (fun s => r[s]?.getD 0) = List.range n := by
    apply List.ext_getElem?
    intro k
    by_cases hk : k < n
    · have hk' : k < (sorted.map (·.2)).length := by rw [hperm.length_eq]; simpa using hk
      have := h3 k _ (List.getElem?_eq_getElem hk')
      rw [List.getElem?_map, List.getElem?_eq_getElem hk', Option.map_some, this]
      simp [hk]
    · have hk' : ¬ k < (sorted.map (·.2)).length := by rw [hperm.length_eq]; simpa using hk
      rw [List.getElem?_map, List.getElem?_eq_none (by omega)]
      simp [hk]
  have hself : r = (List.range n).map fun s => r[s]?.getD 0 := by
    apply List.ext_getElem?
    intro k
    by_cases hk : k < n
    · simp [hk, hrl]
    · simp [hk, hrl]
  have := (hperm.map fun s => r[s]?.getD 0).symm
  rw [hmap, ← hself] at this
  exact this

section Orders
variable {T : Type}

theorem addCustomCmpS_eq (s : SortAlg) (ix : OrderIndex) (c : Container) (maker : Product → Res T)
    (cmp : T → T → Ordering) (key : Str) (f : Product → T) (hm : ∀ p ∈ c.products, maker p = .ok (f p))
    (h : Consistent cmp (c.products.map f)) :
    ix.addCustomCmpS s c maker cmp key = ix.addCustomCmp c maker cmp key := by
  have h' : Consistent (fun a b : T × Nat => cmp a.1 b.1) (c.products.map fun p => (f p, p.sid)) := by
    have hmem : ∀ a ∈ c.products.map (fun p => (f p, p.sid)), a.1 ∈ c.products.map f := by
      intro a ha
      obtain ⟨p, hp, rfl⟩ := List.mem_map.1 ha
      exact List.mem_map.2 ⟨p, hp, rfl⟩
    exact ⟨fun a ha b hb => h.1 _ (hmem a ha) _ (hmem b hb),
      fun a ha b hb d hd => h.2 _ (hmem a ha) _ (hmem b hb) _ (hmem d hd)⟩
  unfold OrderIndex.addCustomCmpS OrderIndex.addCustomCmp
  rw [makeAll_ok _ hm]
  simp only [Res.bind_ok]
  rw [s.eq h']
  rfl

theorem addCustomCmpS_cases (s : SortAlg) (ix : OrderIndex) (c : Container) (maker : Product → Res T)
    (cmp : T → T → Ordering) (key : Str) (f : Product → T) (hm : ∀ p ∈ c.products, maker p = .ok (f p))
    (hsid : ∀ (i : Nat) (p : Product), c.products[i]? = some p → p.sid = i) :
    ix.addCustomCmpS s c maker cmp key = .panic .explicit ∨
    ∃ ranks, ix.addCustomCmpS s c maker cmp key = .ok (AMap.insert ix key ranks) ∧
      ranks.Perm (List.range c.products.length) := by
  have hidx : (c.products.map (fun p => (f p, p.sid))).map (·.2) = List.range c.products.length := by
    apply List.ext_getElem?
    intro i
    by_cases hi : i < c.products.length
    · have := hsid i _ (List.getElem?_eq_getElem hi)
      simp [hi, this]
    · simp [hi]
  unfold OrderIndex.addCustomCmpS
  rw [makeAll_ok _ hm]
  simp only [Res.bind_ok]
  cases h : s.sort (fun a b : T × Nat => cmp a.1 b.1) (c.products.map fun p => (f p, p.sid)) with
  | error w => exact .inl (by rw [s.why _ _ w h]; rfl)
  | ok sorted =>
    obtain ⟨r, h1, h2⟩ := fillOrder_perm hidx (s.perm _ _ sorted h)
    refine .inr ⟨r, ?_, h2⟩
    simp only [Res.ofExcept, Res.bind_ok, Res.pure_eq]
    rw [h1]
    rfl

theorem addCustomCmpS_strict (ix : OrderIndex) (c : Container) (maker : Product → Res T)
    (cmp : T → T → Ordering) (key : Str) (f : Product → T) (hm : ∀ p ∈ c.products, maker p = .ok (f p))
    (h : ¬ Consistent cmp (c.products.map f)) :
    ix.addCustomCmpS .strict c maker cmp key = .panic .explicit := by
  have h' : ¬ Consistent (fun a b : T × Nat => cmp a.1 b.1) (c.products.map fun p => (f p, p.sid)) := by
    intro hc
    apply h
    have hmem : ∀ a ∈ c.products.map f, ∃ b ∈ c.products.map (fun p => (f p, p.sid)), b.1 = a := by
      intro a ha
      obtain ⟨p, hp, rfl⟩ := List.mem_map.1 ha
      exact ⟨_, List.mem_map.2 ⟨p, hp, rfl⟩, rfl⟩
    refine ⟨?_, ?_⟩
    · intro a ha b hb
      obtain ⟨a', ha', rfl⟩ := hmem a ha
      obtain ⟨b', hb', rfl⟩ := hmem b hb
      exact hc.1 a' ha' b' hb'
    · intro a ha b hb d hd
      obtain ⟨a', ha', rfl⟩ := hmem a ha
      obtain ⟨b', hb', rfl⟩ := hmem b hb
      obtain ⟨d', hd', rfl⟩ := hmem d hd
      exact hc.2 a' ha' b' hb' d' hd'
  unfold OrderIndex.addCustomCmpS
  rw [makeAll_ok _ hm]
  simp only [Res.bind_ok]
  rw [show SortAlg.strict.sort (fun a b : T × Nat => cmp a.1 b.1) _ = _ from if_neg h']
  rfl

end Orders

/-! ## Indexing -/

theorem Res.bind_ok_inv {x : Res α} {f : α → Res β} {b : β} (h : (x >>= f) = .ok b) : ∃ a, x = .ok a ∧ f a = .ok b := by
  cases x with
  | ok a => exact ⟨a, rfl, h⟩
  | none => cases h
  | panic w => cases h

theorem optimizeS_of_ok (s : SortAlg) {o : HashOrd} {parse : Str → Option F32} {input : List RawProduct} {c : Container}
    {cl : Classic} (h : optimize o parse input = .ok (c, cl)) :
    optimizeS s o parse input = (buildOrdersS s c >>= fun order => pure (c, { cl with order })) ∧
      buildOrders c = .ok cl.order := by
  unfold optimize at h
  obtain ⟨⟨products, extra⟩, h1, h⟩ := Res.bind_ok_inv h
  obtain ⟨tags, h2, h⟩ := Res.bind_ok_inv h
  obtain ⟨order, h3, h⟩ := Res.bind_ok_inv h
  obtain ⟨categories, h4, h⟩ := Res.bind_ok_inv h
  cases h
  refine ⟨?_, h3⟩
  unfold optimizeS
  simp only [h1, Res.bind_ok, h2]
  congr 1
  funext order
  rw [h4]
  rfl

theorem Built.priceData {parse o input c cl prices} (b : Built parse o input c cl prices) :
    c.products.map (fun p => prices[p.sid]?.getD F32.zero) = prices := by
  apply List.ext_getElem?
  intro i
  have hl : c.products.length = prices.length := by rw [b.length, b.price_length]
  by_cases hi : i < prices.length
  · have hi' : i < c.products.length := by omega
    have := b.sid i _ (List.getElem?_eq_getElem hi')
    rw [List.getElem?_map, List.getElem?_eq_getElem hi', Option.map_some, this]
    simp [hi]
  · rw [List.getElem?_eq_none (by simp; omega), List.getElem?_eq_none (by omega)]

theorem Built.priceMaker {parse o input c cl prices} (b : Built parse o input c cl prices) (p : Product)
    (hp : p ∈ c.products) : Idx.priceMaker c.extra p = .ok (prices[p.sid]?.getD F32.zero) := by
  apply priceMaker_ok b.columns
  have := (List.getElem?_eq_some_iff.1 (b.mem_sid p hp)).1
  rw [b.price_length, ← b.length]
  exact this

/-- Indexing on top of any sorting algorithm: with comparable prices it gives what the model gives; otherwise it
panics in the algorithm, or gives the same products, tags, categories and alphabetical order, and two price orders
that number the products in some order. -/
theorem C101_prices (s : SortAlg) (o : HashOrd) (parse : Str → Option F32) (input : List RawProduct)
    (prices : List F32) (hp : input.map (fun raw => parse raw.price.min.amount) = prices.map some) :
    ∃ c cl, optimize o parse input = .ok (c, cl) ∧
      (Comparable prices → optimizeS s o parse input = .ok (c, cl)) ∧
      (optimizeS s o parse input = .panic .explicit ∨
        ∃ order, optimizeS s o parse input = .ok (c, { cl with order }) ∧
          order.getOrders alphabeticalKey = cl.order.getOrders alphabeticalKey ∧
          (∀ k, (∃ r, order.getOrders k = some r) ↔ ∃ r, cl.order.getOrders k = some r) ∧
          ∀ k r, order.getOrders k = some r → r.Perm (List.range input.length)) := by
  obtain ⟨c, cl, e, b⟩ := optimize_ok o parse input prices hp
  obtain ⟨es, eb⟩ := optimizeS_of_ok s e
  obtain ⟨r1, r2, r3, ho, o1, o2, o3, hperm⟩ := b.orders
  have hsid := b.sid
  have e1 : OrderIndex.addCustomCmpS s [] c (fun p => .ok p.title) strCmp alphabeticalKey =
      .ok (AMap.insert [] alphabeticalKey r1) := by
    rw [addCustomCmpS_eq s [] c _ strCmp alphabeticalKey Product.title (fun _ _ => rfl) (consistent_str (fun x => x) _), o1]
  refine ⟨c, cl, e, fun hc => ?_, ?_⟩
  · rw [es]
    unfold buildOrdersS
    have e2 := fun ix : OrderIndex => addCustomCmpS_eq s ix c _ F32.cmpOrEq priceLowKey _ b.priceMaker
      (by rw [b.priceData]; exact (C101_comparable (fun x => x) prices).2 (by simpa using hc))
    have e3 := fun ix : OrderIndex => addCustomCmpS_eq s ix c _ (fun a b => (F32.cmpOrEq a b).swap) priceHighKey _ b.priceMaker
      (by rw [b.priceData]; exact (comparable_reverse (fun x => x) prices).2 (by simpa using hc))
    simp only [e1, Res.bind_ok, e2, o2, e3, o3, ← ho]
    rfl
  · rw [es]
    unfold buildOrdersS
    simp only [e1, Res.bind_ok]
    rcases addCustomCmpS_cases s (AMap.insert [] alphabeticalKey r1) c (priceMaker c.extra) F32.cmpOrEq priceLowKey _
      b.priceMaker hsid with h | ⟨r2', h, p2⟩
    · left; rw [h]; rfl
    · rw [h]
      simp only [Res.bind_ok]
      rcases addCustomCmpS_cases s (AMap.insert (AMap.insert [] alphabeticalKey r1) priceLowKey r2') c
        (priceMaker c.extra) (fun a b => (F32.cmpOrEq a b).swap) priceHighKey _ b.priceMaker hsid with h | ⟨r3', h, p3⟩
      · left; rw [h]; rfl
      · right
        rw [h]
        refine ⟨_, rfl, ?_, ?_, ?_⟩
        · rw [ho]
          simp only [OrderIndex.getOrders, AMap.get_insert]
          simp [show priceHighKey ≠ alphabeticalKey by decide, show priceLowKey ≠ alphabeticalKey by decide]
        · intro k
          rw [ho]
          simp only [OrderIndex.getOrders, AMap.get_insert]
          by_cases k3 : priceHighKey = k
          · simp [k3]
          · by_cases k2 : priceLowKey = k
            · simp [k2, k3]
            · simp [k2, k3]
        · intro k r hr
          have p1 : r1.Perm (List.range input.length) := by simp [hperm]
          rw [b.length] at p2 p3
          simp only [OrderIndex.getOrders, AMap.get_insert] at hr
          split at hr
          · cases hr; exact p3
          · split at hr
            · cases hr; exact p2
            · split at hr
              · cases hr; exact p1
              · cases hr

/-- With other prices an algorithm that notices inconsistent comparisons panics. -/
theorem C101_prices_strict (o : HashOrd) (parse : Str → Option F32) (input : List RawProduct)
    (prices : List F32) (hp : input.map (fun raw => parse raw.price.min.amount) = prices.map some)
    (hc : ¬ Comparable prices) : optimizeS .strict o parse input = .panic .explicit := by
  obtain ⟨c, cl, e, b⟩ := optimize_ok o parse input prices hp
  obtain ⟨es, _⟩ := optimizeS_of_ok .strict e
  obtain ⟨r1, _, _, _, o1, _⟩ := b.orders
  have e1 : OrderIndex.addCustomCmpS .strict [] c (fun p => .ok p.title) strCmp alphabeticalKey =
      .ok (AMap.insert [] alphabeticalKey r1) := by
    rw [addCustomCmpS_eq .strict [] c _ strCmp alphabeticalKey Product.title (fun _ _ => rfl)
      (consistent_str (fun x => x) _), o1]
  rw [es]
  unfold buildOrdersS
  simp only [e1, Res.bind_ok]
  rw [addCustomCmpS_strict _ c _ F32.cmpOrEq priceLowKey _ b.priceMaker]
  · rfl
  · rw [b.priceData]
    exact fun hcon => hc (by simpa using (C101_comparable (fun x => x) prices).1 hcon)

/-- Exactly the catalogues with comparable prices are indexed the same by all algorithms. -/
theorem C101_prices_iff (o : HashOrd) (parse : Str → Option F32) (input : List RawProduct)
    (prices : List F32) (hp : input.map (fun raw => parse raw.price.min.amount) = prices.map some) :
    (∀ s : SortAlg, optimizeS s o parse input = optimize o parse input) ↔ Comparable prices := by
  refine ⟨fun h => Classical.byContradiction fun hc => ?_, fun hc s => ?_⟩
  · obtain ⟨c, cl, e, _⟩ := optimize_ok o parse input prices hp
    have := h .strict
    rw [e, C101_prices_strict o parse input prices hp hc] at this
    cases this
  · obtain ⟨c, cl, e, h, _⟩ := C101_prices s o parse input prices hp
    rw [e, h hc]

/-- A price that does not parse stops all of them at the same place. -/
theorem C101_unparsable (s : SortAlg) (o : HashOrd) (parse : Str → Option F32) (input : List RawProduct)
    (hp : ∃ raw ∈ input, parse raw.price.min.amount = none) : optimizeS s o parse input = .panic .unwrapNone := by
  have h := optimize_panic o parse input hp
  obtain ⟨hinv, hnames⟩ := foldl_insert_inv input VendorManager.new VendorManager.inv_new
  generalize hv : input.foldl (fun m raw => m.insert raw.vendor) VendorManager.new = vendors at *
  have hsome : ∀ raw ∈ input, (vendors.get raw.vendor).isSome := by
    intro raw hr
    obtain ⟨v, hv, e⟩ := List.mem_map.1 ((hnames raw.vendor).2 (.inr ⟨raw, hr, rfl⟩))
    rw [(hinv.get_iff raw.vendor v).2 ⟨hv, e⟩]; rfl
  have := productsLoop_panic (vendors := vendors) input 0 [] [] [] [] ColumnsAre.nil hsome hp
  unfold optimizeS
  simp only [hv, this, Res.bind_panic]

theorem buildAllS_eq (s : SortAlg) (t : Target) (o : HashOrd) (lower : Char → List Char) (parse : Str → Option F32)
    (n : Nat) (input : List RawProduct) (h : optimizeS s o parse input = optimize o parse input) :
    buildAllS s t o lower parse n input = buildAll t o lower parse n input := by
  unfold buildAllS buildAll
  rw [h]
  congr 1
  funext x
  obtain ⟨c, cl⟩ := x
  simp only [C101_index]
  rfl

/-- From the catalogue to the file: with comparable prices the file is the one of the model, whatever the algorithm. -/
theorem C101_file (s : SortAlg) (t : Target) (o : HashOrd) (lower : Char → List Char) (parse : Str → Option F32) (n : Nat)
    (input : List RawProduct) (h1 : 1 ≤ n) (h2 : n ≤ 764) (hsize : totalChars lower input ≤ 2 ^ 32)
    (hp : ∀ prices : List F32, input.map (fun raw => parse raw.price.min.amount) = prices.map some → Comparable prices) :
    indexAndSerializeS s t o lower parse n input = indexAndSerialize t o lower parse n input := by
  have ho : optimizeS s o parse input = optimize o parse input := by
    rcases parse_cases parse input with hn | ⟨prices, hpr⟩
    · rw [C101_unparsable s o parse input hn, optimize_panic o parse input hn]
    · exact (C101_prices_iff o parse input prices hpr).2 (hp prices hpr) s
  unfold indexAndSerializeS indexAndSerialize
  rw [buildAllS_eq s t o lower parse n input ho]
  cases hb : buildAll t o lower parse n input with
  | none => rfl
  | panic w => rfl
  | ok r =>
    obtain ⟨ix, cl⟩ := r
    simp only [Res.bind_ok, C101_built ⟨h1, h2, hb, hsize⟩, C101_write]
    rfl

/-! ## Where the algorithm shows -/

/-- A check that some of the floats is NaN and two others differ. -/
def incomparable (l : List F32) : Bool :=
  l.any (fun x => decide (x.val = .nan)) && l.any fun x => l.any fun y => F32.lt x y

theorem incomparable_sound {l : List F32} (h : incomparable l = true) : ¬ Comparable l := by
  unfold incomparable at h
  simp only [Bool.and_eq_true, List.any_eq_true, decide_eq_true_eq] at h
  obtain ⟨⟨z, hz, hnan⟩, x, hx, y, hy, hlt⟩ := h
  rintro (hc | hc)
  · exact hc z hz hnan
  · have h1 : x.val ≠ .nan := by
      intro e; unfold F32.lt at hlt; rw [e] at hlt; cases hlt
    have h2 : y.val ≠ .nan := by
      intro e
      unfold F32.lt at hlt
      rw [e] at hlt
      cases h : x.val <;> rw [h] at hlt <;> cases hlt
    rw [hc x hx y hy h1 h2] at hlt
    cases hlt

namespace Crafted

/-- Loads the file, searches it, and checks the confidences. -/
def check (file : Bytes) (query : List Char) : Bool :=
  match deserializeAll .wasm32 ngramIndexSize file with
  | .ok (ix, _) =>
    match ix.searchF .ident ngramIndexSize query with
    | .ok l => incomparable (l.map (·.2))
    | .error _ => false
  | _ => false

theorem check_sound {file : Bytes} {query : List Char} (h : check file query = true) :
    ∃ ix cl l, deserializeAll .wasm32 ngramIndexSize file = .ok (ix, cl) ∧
      ix.search .ident ngramIndexSize query = .ok l ∧ ¬ Comparable (l.map (·.2)) := by
  unfold check at h
  split at h
  · rename_i ix cl e
    split at h
    · rename_i l hl
      rw [searchF_eq] at hl
      exact ⟨ix, cl, l, e, hl, incomparable_sound h⟩
    · cases h
  · cases h

/-- Three products without texts, found by five letters `a`, `b` or `c`; the weight after the first `a` is NaN, the one
after the first `b` is 1, the one after the first `c` is a half. -/
def file : Bytes := [1, 0, 3, 0, 0, 1, 49, 0, 0, 0, 1, 50, 0, 0, 0, 1, 51, 0, 0, 3,
  97, 97, 63, 128, 0, 0, 1, 97, 127, 192, 0, 0, 1, 97, 63, 128, 0, 0, 1, 97, 63, 128, 0, 0, 1, 97, 63, 128, 0, 0, 0,
  98, 98, 63, 128, 0, 0, 1, 98, 63, 128, 0, 0, 1, 98, 63, 128, 0, 0, 1, 98, 63, 128, 0, 0, 1, 98, 63, 128, 0, 0, 0,
  99, 99, 63, 128, 0, 0, 1, 99, 63, 0, 0, 0, 1, 99, 63, 128, 0, 0, 1, 99, 63, 128, 0, 0, 1, 99, 63, 128, 0, 0, 0,
  3, 5, 97, 97, 97, 97, 97, 1, 0, 5, 98, 98, 98, 98, 98, 1, 1, 5, 99, 99, 99, 99, 99, 1, 2, 0, 0, 0]

def query : List Char := List.replicate 5 'a' ++ List.replicate 5 'b' ++ List.replicate 5 'c'

theorem checked : check file query = true := by decide +kernel

/-- Products with the prices NaN, 1 and 2. -/
def items : List RawProduct := [['N', 'a', 'N'], ['1'], ['2']].map fun amount =>
  { mkRaw [] [] amount with price := ⟨⟨amount, []⟩, ⟨amount, []⟩⟩ }

end Crafted

/-- A file with a NaN in it loads, and the model's search of it succeeds; with an algorithm that notices inconsistent
comparisons the same search panics, and no later call gets the index. -/
theorem C101_false (mode : PanicMode) : ∃ (file : Bytes) (e e' : Engine) (cats : CategoryHandler) (tags : TagHandler)
    (input : Str) (found : ProductProducer),
    Engine.start.initialize .wasm32 file = (e, .ok true) ∧ e.getCategories = .ok (some cats) ∧
    e.getTags = .ok (some tags) ∧
    e.search mode .ident (fun c => [c]) input cats tags none [] = (e, .ok (some found)) ∧
    e.searchS .strict mode .ident (fun c => [c]) input cats tags none [] = (e', .error .explicit) ∧
    e'.index.state ≠ .free := by
  obtain ⟨ix, cl, l, h1, h2, h3⟩ := Crafted.check_sound Crafted.checked
  generalize Crafted.file = file at *
  generalize Crafted.query = query at *
  have hq : query.flatMap (fun c => [c]) = query := by simp
  obtain ⟨r, hr, hs⟩ := searchIds_spec .ident (fun c => [c]) ix query (.new cl) (.new cl)
    (fun _ _ h => by cases h) (fun _ h => by cases h) []
  have hsearch : ∃ found, Engine.search mode .ident (fun c => [c]) ⟨⟨.free, some ix⟩, ⟨.free, some cl⟩⟩ query (.new cl)
      (.new cl) none [] = (⟨⟨.free, some ix⟩, ⟨.free, some cl⟩⟩, .ok (some found)) := by
    unfold Engine.search
    simp only [parseFilters, Slot.lockOk, hs]
    exact ⟨_, rfl⟩
  obtain ⟨found, hfound⟩ := hsearch
  have hinit : Engine.start.initialize .wasm32 file = (⟨⟨.free, some ix⟩, ⟨.free, some cl⟩⟩, .ok true) := by
    unfold Engine.initialize
    rw [h1]
    rfl
  exact ⟨file, ⟨⟨.free, some ix⟩, ⟨.free, some cl⟩⟩, _, .new cl, .new cl, query, found, hinit, rfl, rfl, hfound,
    C101_engine_strict mode .ident (fun c => [c]) ⟨⟨.free, some ix⟩, ⟨.free, some cl⟩⟩ query (.new cl) (.new cl) none []
      (filters := []) rfl (ix := ix) rfl (by rw [hq]; exact h2) h3, by cases mode <;> exact nofun⟩

/-- A catalogue with the prices NaN, 1 and 2 is indexed by the model; an algorithm that notices panics. -/
theorem C101_false_prices (o : HashOrd) : (∃ r, optimize o parseF32 Crafted.items = .ok r) ∧
    optimizeS .strict o parseF32 Crafted.items = .panic .explicit := by
  have hp : Crafted.items.map (fun raw => parseF32 raw.price.min.amount) =
      [F32.nan, F32.one, ⟨0x40000000⟩].map some := by decide +kernel
  obtain ⟨c, cl, e, _⟩ := optimize_ok o parseF32 Crafted.items _ hp
  exact ⟨⟨_, e⟩, C101_prices_strict o parseF32 Crafted.items _ hp (incomparable_sound (by decide +kernel))⟩

/-- Comparable floats: the three prices of a catalogue without NaN; and equal prices beside a NaN. -/
example : Comparable [F32.one, F32.zero, F32.inf false] := .inl (by decide +kernel)
example : Comparable [F32.one, F32.nan, F32.one] := .inr (by decide +kernel)
example : ¬ Comparable [F32.one, F32.nan, F32.zero] := incomparable_sound (by decide +kernel)

end Idx
