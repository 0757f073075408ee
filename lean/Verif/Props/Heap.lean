import Verif.Lemmas.Heap
import Verif.Lemmas.Run
/-! C86: the builder with shared mutable nodes and 32-bit counters. -/
namespace Idx
variable {G : Type} [DecidableEq G] [RDefault G]

/-- C86. Catalogues with fewer than `2^32` grams: `index_from` never fails and gives the index of the plain model, so
every theorem about that index is about the code. -/
theorem C86 (t : Target) (o : HashOrd) {n : Nat} (hn : 1 ≤ n) (feeds : List (List G × Product)) (c : Container)
    (h : (feeds.map fun feed => feed.1.length).sum < 2 ^ 32) :
    heapIndexFrom t o n feeds c = .ok (indexFrom t o n feeds c) := by
  change totalGrams feeds < 2 ^ 32 at h
  rcases index_out (t := t) o hn feeds c with ⟨ix, e, _, rfl⟩ | ⟨_, _, h'⟩
  · rw [e]
    congr 1
    have hlow : (forestOf n feeds).map MNode.low = forestOf n feeds := by
      rcases feeds_out (t := t) hn (N := totalGrams feeds) feeds (done := []) (acc := ([], [], [])) (acc' := ([], []))
          ⟨⟨[], .nil, by simp⟩, rfl⟩ (feedsInv_nil n) (by simp) with ⟨r, _, ⟨⟨fp, ho, _⟩, _⟩⟩ | ⟨_, _, h'⟩
      · refine Owns.low ho (forest_ok hn feeds) fun q => ?_
        have := forest_occ hn feeds q
        have h2 := occurrencesIn_le_total q feeds
        rw [this]
        split <;> omega
      · omega
    have hroots := roots_eq t o n feeds c
    have e2 : ((forestOf n feeds).map fun m => (m.item, immutalize o [] (totalGrams feeds % 2 ^ 32) m.low)) =
        ((forestOf n feeds).map (immutalize o [] (totalGrams feeds))).map fun r => (r.item, r) := by
      rw [Nat.mod_eq_of_lt h, List.map_map]
      conv => rhs; rw [← hlow]
      rw [List.map_map]
      apply List.map_congr_left
      intro m _
      cases m with
      | mk i occ l => simp [immutalize_item, MNode.low_mk]
    rw [e2, ← hroots]
  · omega

/-- C86. More grams, overflow checks on: the run stops at a counter. -/
theorem C86_overflow (t : Target) (o : HashOrd) {n : Nat} (hn : 1 ≤ n) (feeds : List (List G × Product)) (c : Container)
    (h : 2 ^ 32 ≤ (feeds.map fun feed => feed.1.length).sum) (ht : t.overflowChecks = true) :
    heapIndexFrom t o n feeds c = .error .overflow := by
  change 2 ^ 32 ≤ totalGrams feeds at h
  rcases index_out (t := t) o hn feeds c with ⟨_, _, h', _⟩ | ⟨e, _⟩
  · have := h' ht
    omega
  · exact e

/-- C86. Without overflow checks the run always finishes; posting lists are right, counters are cut to 32 bits. -/
theorem C86_wrap (t : Target) (o : HashOrd) {n : Nat} (hn : 1 ≤ n) (feeds : List (List G × Product)) (c : Container)
    (ht : t.overflowChecks = false) :
    heapIndexFrom t o n feeds c = .ok { indexFrom t o n feeds c with
      roots := o.order "roots" ((feeds.foldl (buildFeed n) ([], [])).1.map fun m =>
        (m.item, immutalize o [] ((feeds.map fun feed => feed.1.length).sum % 2 ^ 32) m.low)) } := by
  rcases index_out (t := t) o hn feeds c with ⟨ix, e, _, rfl⟩ | ⟨_, h, _⟩
  · exact e
  · rw [ht] at h; cases h

/-- C86. No cell is borrowed twice, no address is invalid, the structure is never cyclic. -/
theorem C86_safe (t : Target) (o : HashOrd) {n : Nat} (hn : 1 ≤ n) (feeds : List (List G × Product)) (c : Container) :
    (∃ ix, heapIndexFrom t o n feeds c = .ok ix) ∨ heapIndexFrom t o n feeds c = .error .overflow := by
  rcases index_out (t := t) o hn feeds c with ⟨ix, e, _⟩ | ⟨e, _⟩
  · exact .inl ⟨ix, e⟩
  · exact .inr e

theorem div_ofNat_zero (x : F32) : (∃ neg, F32.div x (F32.ofNat 0) = F32.inf neg) ∨ F32.div x (F32.ofNat 0) = F32.nan := by
  have h0 : (F32.ofNat 0).val = .fin false 0 := by decide +kernel
  rw [F32.div, h0]
  cases x.val with
  | nan => exact .inr rfl
  | inf s => exact .inl ⟨_, rfl⟩
  | fin s m =>
    by_cases hm : m = 0
    · right; simp [hm]
    · left; exact ⟨_, by simp only [if_true, hm, if_false]; rfl⟩

/-- C86. Without overflow checks, `2^32` grams give first-level weights that are infinite or no numbers. -/
theorem C86_lost (t : Target) (o : HashOrd) {n : Nat} (hn : 1 ≤ n) (feeds : List (List G × Product)) (c : Container)
    (h : (feeds.map fun feed => feed.1.length).sum = 2 ^ 32) (ht : t.overflowChecks = false) :
    ∃ ix, heapIndexFrom t o n feeds c = .ok ix ∧ ix.roots ≠ [] ∧
      ∀ r ∈ ix.roots, (∃ neg, r.2.weight = F32.inf neg) ∨ r.2.weight = F32.nan := by
  refine ⟨_, C86_wrap t o hn feeds c ht, ?_, ?_⟩
  · intro e
    have h1 : (feeds.foldl (buildFeed n) ([], [])).1 = [] := by
      have hp := (o.perm "roots" ((feeds.foldl (buildFeed n) ([], [])).1.map fun m =>
        (m.item, immutalize o [] ((feeds.map fun feed => feed.1.length).sum % 2 ^ 32) m.low))).length_eq
      change o.order "roots" _ = [] at e
      rw [e] at hp
      rw [List.length_map, List.length_nil] at hp
      exact List.length_eq_zero_iff.1 hp.symm
    have h2 := forest_total n feeds
    rw [forestOf, h1] at h2
    change 0 = (feeds.map fun feed => feed.1.length).sum at h2
    rw [h] at h2
    exact absurd h2 (by decide)
  · intro r hr
    change r ∈ o.order "roots" _ at hr
    have hr := (o.perm _ _).mem_iff.1 hr
    obtain ⟨m, _, rfl⟩ := List.mem_map.1 hr
    rw [h]
    show (∃ neg, (immutalize o [] (2 ^ 32 % 2 ^ 32) m.low).weight = F32.inf neg) ∨ _
    rw [immutalize_weight]
    exact div_ofNat_zero _

/-- A product with a position. -/
def heapProduct (sid : Nat) : Product := { description := [], title := [], vendor := { name := [], id := 0 }, id := [], sid }

/-- Seven grams in two texts. -/
def heapFeeds : List (List Char × Product) := [("abab".toList, heapProduct 0), ("bab".toList, heapProduct 1)]

/-- Hypotheses of `C86` and `C86_safe`. -/
example : 1 ≤ 3 ∧ (heapFeeds.map fun feed => feed.1.length).sum < 2 ^ 32 := by decide

/-- The cells of that run and the map of roots. -/
def heapCells : Option (List (Char × Nat × List (Char × Nat)) × List (Char × Nat)) :=
  match heapFeeds.foldlM (heapFeed .debug64 3) ([], [], []) with
  | .ok r => some (r.1.map fun c => (c.item, c.occ, c.items), r.2.1)
  | .error _ => none

set_option synthInstance.maxSize 1000 in
/-- `a`, `b`, `ab`, `ba`, `aba`, `bab`, with counters and children. -/
example : heapCells =
    some ([('a', 3, [('b', 2)]), ('b', 4, [('a', 3)]), ('b', 3, [('a', 4)]), ('a', 2, [('b', 5)]), ('a', 1, []), ('b', 2, [])],
      [('a', 0), ('b', 1)]) := by
  decide +kernel

/-- Hypotheses of `C86_overflow`, `C86_wrap` and `C86_lost`. -/
example : (([(List.replicate (2 ^ 32) 'a', heapProduct 0)] : List (List Char × Product)).map fun feed => feed.1.length).sum = 2 ^ 32 ∧
    Target.debug64.overflowChecks = true ∧ { Target.debug64 with overflowChecks := false }.overflowChecks = false := by
  refine ⟨?_, rfl, rfl⟩
  rw [List.map_cons, List.length_replicate]
  rfl

end Idx
