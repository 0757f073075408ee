import Verif.Model.Basic
/-! The stable sort: permutation, sortedness, stability, uniqueness. -/
namespace Idx
variable {α β : Type}

/-- `le` is a total preorder (what `sort_by` requires of a comparison). -/
structure TotalPreorder (le : α → α → Bool) : Prop where
  total : ∀ a b, le a b = true ∨ le b a = true
  trans : ∀ a b c, le a b = true → le b c = true → le a c = true

theorem TotalPreorder.refl {le : α → α → Bool} (h : TotalPreorder le) (a : α) : le a a = true := by
  rcases h.total a a with h | h <;> exact h

theorem insertSorted_perm (le : α → α → Bool) (a : α) (l : List α) :
    (insertSorted le a l).Perm (a :: l) := by
  induction l with
  | nil => exact List.Perm.refl _
  | cons b l ih =>
    simp only [insertSorted]
    split
    · exact List.Perm.refl _
    · exact (ih.cons b).trans (List.Perm.swap a b l)

theorem stableSort_perm (le : α → α → Bool) (l : List α) : (stableSort le l).Perm l := by
  induction l with
  | nil => exact List.Perm.refl _
  | cons a l ih => exact (insertSorted_perm le a _).trans (ih.cons a)

theorem mem_stableSort {le : α → α → Bool} {l : List α} {a : α} : a ∈ stableSort le l ↔ a ∈ l :=
  (stableSort_perm le l).mem_iff

@[simp] theorem length_stableSort (le : α → α → Bool) (l : List α) :
    (stableSort le l).length = l.length := (stableSort_perm le l).length_eq

/-- Sortedness, for a comparison that is a total preorder on the elements present. -/
theorem insertSorted_sorted {le : α → α → Bool} (S : α → Prop)
    (total : ∀ a b, S a → S b → le a b = true ∨ le b a = true)
    (trans : ∀ a b c, S a → S b → S c → le a b = true → le b c = true → le a c = true)
    (a : α) (ha : S a) (l : List α) (hl : ∀ b ∈ l, S b)
    (h : l.Pairwise (fun a b => le a b = true)) :
    (insertSorted le a l).Pairwise (fun a b => le a b = true) := by
  induction l with
  | nil => simp [insertSorted]
  | cons b l ih =>
    have hb := hl b (by simp)
    have hl' : ∀ c ∈ l, S c := fun c hc => hl c (by simp [hc])
    rw [List.pairwise_cons] at h
    simp only [insertSorted]
    split
    · rename_i hab
      rw [List.pairwise_cons]
      refine ⟨?_, List.pairwise_cons.2 h⟩
      intro c hc
      rcases List.mem_cons.1 hc with rfl | hc
      · exact hab
      · exact trans a b c ha hb (hl' c hc) hab (h.1 c hc)
    · rename_i hab
      rw [List.pairwise_cons]
      refine ⟨?_, ih hl' h.2⟩
      intro c hc
      rcases List.mem_cons.1 ((insertSorted_perm le a l).mem_iff.1 hc) with rfl | hc
      · rcases total b c hb ha with h' | h'
        · exact h'
        · exact absurd h' hab
      · exact h.1 c hc

theorem stableSort_sorted_on {le : α → α → Bool} (S : α → Prop)
    (total : ∀ a b, S a → S b → le a b = true ∨ le b a = true)
    (trans : ∀ a b c, S a → S b → S c → le a b = true → le b c = true → le a c = true)
    (l : List α) (hl : ∀ b ∈ l, S b) : (stableSort le l).Pairwise (fun a b => le a b = true) := by
  induction l with
  | nil => simp [stableSort]
  | cons a l ih =>
    refine insertSorted_sorted S total trans a (hl a (by simp)) _ ?_ (ih fun b hb => hl b (by simp [hb]))
    intro b hb
    exact hl b (List.mem_cons_of_mem _ (mem_stableSort.1 hb))

theorem stableSort_sorted {le : α → α → Bool} (h : TotalPreorder le) (l : List α) :
    (stableSort le l).Pairwise (fun a b => le a b = true) :=
  stableSort_sorted_on (fun _ => True) (fun a b _ _ => h.total a b) (fun a b c _ _ _ => h.trans a b c) l
    (by simp)

theorem stableSort_of_sorted {le : α → α → Bool} {l : List α}
    (h : l.Pairwise (fun a b => le a b = true)) : stableSort le l = l := by
  induction l with
  | nil => rfl
  | cons a l ih =>
    rw [List.pairwise_cons] at h
    rw [stableSort, ih h.2]
    cases l with
    | nil => rfl
    | cons b l => simp [insertSorted, h.1 b (by simp)]

/-- Elements equivalent to `x`. -/
def equivTo (le : α → α → Bool) (x y : α) : Bool := le x y && le y x

theorem insertSorted_filter {le : α → α → Bool} (S : α → Prop)
    (total : ∀ a b, S a → S b → le a b = true ∨ le b a = true)
    (trans : ∀ a b c, S a → S b → S c → le a b = true → le b c = true → le a c = true)
    (x : α) (hx : S x) (a : α) (ha : S a) (l : List α) (hl : ∀ b ∈ l, S b) :
    (insertSorted le a l).filter (equivTo le x) = (a :: l).filter (equivTo le x) := by
  induction l with
  | nil => rfl
  | cons b l ih =>
    have hb := hl b (by simp)
    simp only [insertSorted]
    split
    · rfl
    · rename_i hab
      have hba : le b a = true := by
        rcases total a b ha hb with h' | h'
        · exact absurd h' hab
        · exact h'
      rw [List.filter_cons, ih (fun c hc => hl c (by simp [hc]))]
      by_cases h1 : equivTo le x a = true
      · have h2 : ¬ equivTo le x b = true := by
          intro h2
          simp only [equivTo, Bool.and_eq_true] at h1 h2
          exact hab (trans a x b ha hx hb h1.2 h2.1)
        simp [h1, h2]
      · by_cases h2 : equivTo le x b = true <;> simp [h1, h2]

/-- Stability: equivalent elements keep their order. -/
theorem stableSort_filter_on {le : α → α → Bool} (S : α → Prop)
    (total : ∀ a b, S a → S b → le a b = true ∨ le b a = true)
    (trans : ∀ a b c, S a → S b → S c → le a b = true → le b c = true → le a c = true)
    (x : α) (hx : S x) (l : List α) (hl : ∀ b ∈ l, S b) :
    (stableSort le l).filter (equivTo le x) = l.filter (equivTo le x) := by
  induction l with
  | nil => rfl
  | cons a l ih =>
    rw [stableSort, insertSorted_filter S total trans x hx a (hl a (by simp)) _
      (fun b hb => hl b (List.mem_cons_of_mem _ (mem_stableSort.1 hb))), List.filter_cons,
      ih (fun b hb => hl b (by simp [hb])), List.filter_cons]

theorem stableSort_filter {le : α → α → Bool} (h : TotalPreorder le) (x : α) (l : List α) :
    (stableSort le l).filter (equivTo le x) = l.filter (equivTo le x) :=
  stableSort_filter_on (fun _ => True) (fun a b _ _ => h.total a b) (fun a b c _ _ _ => h.trans a b c) x
    trivial l (by simp)

/-- Two sorted lists with the same equivalence classes (in the same order inside each) are equal. -/
theorem eq_of_sorted_of_filter {le : α → α → Bool} (h : TotalPreorder le) :
    ∀ (l m : List α), l.Pairwise (fun a b => le a b = true) → m.Pairwise (fun a b => le a b = true) →
      (∀ x, l.filter (equivTo le x) = m.filter (equivTo le x)) → l = m := by
  intro l
  induction l with
  | nil =>
    intro m _ _ hf
    cases m with
    | nil => rfl
    | cons b m =>
      have := hf b
      have hbb : equivTo le b b = true := by simp [equivTo, h.refl b]
      simp [hbb] at this
  | cons a l ih =>
    intro m hl hm hf
    cases m with
    | nil =>
      have := hf a
      have haa : equivTo le a a = true := by simp [equivTo, h.refl a]
      simp [haa] at this
    | cons b m =>
      rw [List.pairwise_cons] at hl hm
      have haa : equivTo le a a = true := by simp [equivTo, h.refl a]
      have hbb : equivTo le b b = true := by simp [equivTo, h.refl b]
      -- a is somewhere in b :: m, so le b a; symmetrically le a b
      have ha : a ∈ b :: m := by
        have := hf a
        have h' : a ∈ (a :: l).filter (equivTo le a) := by simp [haa]
        rw [this] at h'
        exact (List.mem_filter.1 h').1
      have hb : b ∈ a :: l := by
        have := hf b
        have h' : b ∈ (b :: m).filter (equivTo le b) := by simp [hbb]
        rw [← this] at h'
        exact (List.mem_filter.1 h').1
      have hba : le b a = true := by
        rcases List.mem_cons.1 ha with rfl | ha
        · exact h.refl _
        · exact hm.1 a ha
      have hab : le a b = true := by
        rcases List.mem_cons.1 hb with rfl | hb
        · exact h.refl _
        · exact hl.1 b hb
      have heq : a = b := by
        have := hf a
        rw [List.filter_cons, List.filter_cons, if_pos haa,
          if_pos (by simp [equivTo, hab, hba])] at this
        exact (List.cons.inj this).1
      subst heq
      congr 1
      refine ih m hl.2 hm.2 fun x => ?_
      have := hf x
      rw [List.filter_cons, List.filter_cons] at this
      split at this
      · exact (List.cons.inj this).2
      · exact this

/-- Any correct stable sorting algorithm returns the list `stableSort` returns. -/
theorem stableSort_unique {le : α → α → Bool} (h : TotalPreorder le) (l m : List α)
    (hs : m.Pairwise (fun a b => le a b = true))
    (hf : ∀ x, m.filter (equivTo le x) = l.filter (equivTo le x)) : m = stableSort le l :=
  eq_of_sorted_of_filter h m _ hs (stableSort_sorted h l) fun x => by rw [hf, stableSort_filter h]

theorem natLe_totalPreorder (f : α → Nat) : TotalPreorder fun a b => decide (f a ≤ f b) :=
  ⟨fun a b => by simp; omega, fun a b c => by simp; omega⟩

/-- Two sorted permutations of one another under an antisymmetric relation are equal. -/
theorem Perm.eq_of_natSorted {l m : List Nat} (p : l.Perm m) (hl : l.Pairwise (· ≤ ·))
    (hm : m.Pairwise (· ≤ ·)) : l = m :=
  p.eq_of_pairwise (fun _ _ _ _ h1 h2 => Nat.le_antisymm h1 h2) hl hm

end Idx

namespace Idx

theorem eq_of_key_eq {α : Type} {f : α → Nat} {l : List α} (h : l.Pairwise fun a b => f a < f b)
    {a b : α} (ha : a ∈ l) (hb : b ∈ l) (e : f a = f b) : a = b := by
  induction l with
  | nil => simp at ha
  | cons x l ih =>
    rw [List.pairwise_cons] at h
    rcases List.mem_cons.1 ha with ha' | ha' <;> rcases List.mem_cons.1 hb with hb' | hb'
    · rw [ha', hb']
    · have := h.1 b hb'; subst ha'; omega
    · have := h.1 a ha'; subst hb'; omega
    · exact ih h.2 ha' hb'

/-- Sorting any rearrangement of a strictly ascending list by the same key gives that list. -/
theorem stableSort_key_perm {α : Type} {f : α → Nat} {l l' : List α} (p : l'.Perm l)
    (h : l.Pairwise fun a b => f a < f b) : stableSort (fun a b => decide (f a ≤ f b)) l' = l := by
  have hp := (stableSort_perm (fun a b => decide (f a ≤ f b)) l').trans p
  refine hp.eq_of_pairwise (le := fun a b => f a ≤ f b) ?_ ?_ ?_
  · intro a b ha hb h1 h2
    exact eq_of_key_eq h (hp.mem_iff.1 ha) hb (Nat.le_antisymm h1 h2)
  · have := stableSort_sorted (natLe_totalPreorder f) l'
    exact this.imp (by simp)
  · exact h.imp Nat.le_of_lt

end Idx
