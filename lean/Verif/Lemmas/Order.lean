import Verif.Lemmas.Sort
import Verif.Lemmas.AMap
import Verif.Model.RawParser
/-! Lemmas about `OrderIndex::add_custom_cmp` and the comparisons used. -/
namespace Idx

/-! ## Stability as a pairwise statement -/

theorem pairwise_of_filters {q : α → α → Bool} {R : α → α → Prop} (hq : ∀ a, q a a = true) :
    ∀ (l : List α), (∀ x ∈ l, (l.filter (q x)).Pairwise R) → l.Pairwise fun a b => q a b = true → R a b := by
  intro l
  induction l with
  | nil => intro _; exact .nil
  | cons a l ih =>
    intro h
    refine .cons ?_ (ih fun x hx => ?_)
    · intro b hb hqb
      have := h a (by simp)
      rw [List.filter_cons_of_pos (hq a), List.pairwise_cons] at this
      exact this.1 b (List.mem_filter.2 ⟨hb, hqb⟩)
    · refine List.Pairwise.sublist ?_ (h x (by simp [hx]))
      exact (List.sublist_cons_self a l).filter _

theorem stableSort_stable_on {α : Type} {le : α → α → Bool} {pos : α → Nat} (S : α → Prop)
    (total : ∀ a b, S a → S b → le a b = true ∨ le b a = true)
    (trans : ∀ a b c, S a → S b → S c → le a b = true → le b c = true → le a c = true)
    (l : List α) (hl : ∀ b ∈ l, S b) (hp : l.Pairwise fun a b => pos a < pos b) :
    (stableSort le l).Pairwise fun a b => le a b = true ∧ (le b a = true → pos a < pos b) := by
  have h1 := stableSort_sorted_on S total trans l hl
  have h2 : (stableSort le l).Pairwise fun a b => (equivTo le a b || pos a == pos b) = true →
      pos a < pos b ∨ pos a = pos b := by
    apply pairwise_of_filters (q := fun a b => equivTo le a b || pos a == pos b)
    · intro a; simp
    · intro x hx
      have hx' := mem_stableSort.1 hx
      have hf := stableSort_filter_on S total trans x (hl x hx') l hl
      -- the element with the position of `x` is `x`
      have hpos : ∀ y ∈ l, pos x = pos y → y = x := by
        intro y hy e
        exact eq_of_key_eq hp hy hx' e.symm
      have hrefl : le x x = true := by rcases total x x (hl x hx') (hl x hx') with h | h <;> exact h
      have : (stableSort le l).filter (fun b => equivTo le x b || pos x == pos b) =
          (stableSort le l).filter (equivTo le x) := by
        apply List.filter_congr
        intro y hy
        by_cases hpe : pos x = pos y
        · have := hpos y (mem_stableSort.1 hy) hpe
          subst this; simp [equivTo, hrefl]
        · simp [hpe]
      rw [this, hf]
      exact (hp.sublist List.filter_sublist).imp fun h => .inl h
  have h3 : (stableSort le l).Pairwise fun a b => pos a ≠ pos b := by
    have hnd : l.Pairwise fun a b => pos a ≠ pos b := hp.imp fun h => Nat.ne_of_lt h
    exact ((stableSort_perm le l).pairwise_iff (R := fun a b => pos a ≠ pos b) (fun h => Ne.symm h)).2 hnd
  refine ((h1.and h2).and h3).imp ?_
  rintro a b ⟨⟨h, hs⟩, hne⟩
  refine ⟨h, fun hba => ?_⟩
  rcases hs (by simp [equivTo, h, hba]) with h | h
  · exact h
  · exact absurd h hne

/-! ## Filling the rank table -/

theorem fillOrder_spec (sids : List Nat) : ∀ (pos : Nat) (order : List Nat), sids.Nodup →
    (∀ s ∈ sids, s < order.length) →
    ∃ r, fillOrder sids pos order = .ok r ∧ r.length = order.length ∧
      (∀ k s, sids[k]? = some s → r[s]? = some (pos + k)) ∧
      (∀ i, i ∉ sids → r[i]? = order[i]?) := by
  induction sids with
  | nil => intro pos order _ _; exact ⟨order, rfl, rfl, by simp, by simp⟩
  | cons s sids ih =>
    intro pos order hn hb
    rw [List.nodup_cons] at hn
    have hs : s < order.length := hb s (by simp)
    obtain ⟨r, h1, h2, h3, h4⟩ := ih (pos + 1) (order.set s pos) hn.2
      (fun x hx => by simpa using hb x (by simp [hx]))
    refine ⟨r, by rw [fillOrder, if_pos hs, h1], by simpa using h2, ?_, ?_⟩
    · intro k x hx
      cases k with
      | zero =>
        simp only [List.getElem?_cons_zero, Option.some.injEq] at hx
        subst hx
        rw [h4 s hn.1, List.getElem?_set_self hs]; rfl
      | succ k =>
        have := h3 k x (by simpa using hx)
        rw [this]; congr 1; omega
    · intro i hi
      simp only [List.mem_cons, not_or] at hi
      rw [h4 i hi.2, List.getElem?_set_ne (Ne.symm hi.1)]

/-! ## Rankings -/

/-- `ranks` numbers the positions `0..n-1` so that `i` gets a smaller number than `j` exactly when `i`
goes before `j`. -/
structure IsRanking (n : Nat) (before : Nat → Nat → Prop) (ranks : List Nat) : Prop where
  perm : ranks.Perm (List.range n)
  iff : ∀ (i j ri rj : Nat), ranks[i]? = some ri → ranks[j]? = some rj → (ri < rj ↔ before i j)

theorem makeAll_ok {maker : Product → Res T} {f : Product → T} : ∀ (l : List Product),
    (∀ p ∈ l, maker p = .ok (f p)) → makeAll maker l = .ok (l.map fun p => (f p, p.sid)) := by
  intro l
  induction l with
  | nil => intro _; rfl
  | cons p l ih =>
    intro h
    rw [makeAll, h p (by simp), ih fun q hq => h q (by simp [hq])]; rfl

/-- Whatever the comparison does, the result is a permutation of the positions, and rank `k` belongs to
the `k`-th element of the sorted list. -/
theorem addCustomCmp_perm {T : Type} (ix : OrderIndex) (c : Container) (maker : Product → Res T)
    (cmp : T → T → Ordering) (key : Str) (f : Product → T)
    (hm : ∀ p ∈ c.products, maker p = .ok (f p))
    (hsid : ∀ (i : Nat) (p : Product), c.products[i]? = some p → p.sid = i) :
    ∃ ranks, ix.addCustomCmp c maker cmp key = .ok (AMap.insert ix key ranks) ∧
      ranks.Perm (List.range c.products.length) ∧
      ∀ (k s : Nat), (stableSort (fun a b : T × Nat => cmp a.1 b.1 != .gt)
        (c.products.map fun p => (f p, p.sid)))[k]?.map Prod.snd = some s → ranks[s]? = some k := by
  generalize hd : c.products.map (fun p => (f p, p.sid)) = data
  let le := fun a b : T × Nat => cmp a.1 b.1 != .gt
  have hidx : data.map (·.2) = List.range c.products.length := by
    subst hd
    apply List.ext_getElem?
    intro i
    by_cases hi : i < c.products.length
    · have := hsid i _ (List.getElem?_eq_getElem hi)
      simp [hi, this]
    · simp [hi]
  have hperm : ((stableSort le data).map (·.2)).Perm (List.range c.products.length) := by
    rw [← hidx]; exact (stableSort_perm le data).map _
  have hnd : ((stableSort le data).map (·.2)).Nodup := hperm.nodup_iff.2 List.nodup_range
  have hlen : data.length = c.products.length := by rw [← hd]; simp
  obtain ⟨r, h1, h2, h3, _⟩ := fillOrder_spec ((stableSort le data).map (·.2)) 0
    (List.replicate data.length 0) hnd (by
      intro s hs
      have := (hperm.mem_iff).1 hs
      simpa [hlen] using this)
  have hrl : r.length = c.products.length := by simpa [hlen] using h2
  refine ⟨r, ?_, ?_, ?_⟩
  · unfold OrderIndex.addCustomCmp
    rw [makeAll_ok _ hm, hd]
    simp only [Res.bind_ok, Res.pure_eq]
    rw [h1]; rfl
  · -- `k ↦ r[s_k] = k`
    have hmap : ((stableSort le data).map (·.2)).map (fun s => r[s]?.getD 0) =
        List.range c.products.length := by
      apply List.ext_getElem?
      intro k
      by_cases hk : k < c.products.length
      · have hk' : k < ((stableSort le data).map (·.2)).length := by rw [hperm.length_eq]; simpa using hk
        have := h3 k _ (List.getElem?_eq_getElem hk')
        rw [List.getElem?_map, List.getElem?_eq_getElem hk', Option.map_some, this]
        simp [hk]
      · have hk' : ¬ k < ((stableSort le data).map (·.2)).length := by rw [hperm.length_eq]; simpa using hk
        rw [List.getElem?_map, List.getElem?_eq_none (by omega)]
        simp [hk]
    have hself : r = (List.range c.products.length).map fun s => r[s]?.getD 0 := by
      apply List.ext_getElem?
      intro k
      by_cases hk : k < c.products.length
      · simp [hk, hrl]
      · simp [hk, hrl]
    have := (hperm.map fun s => r[s]?.getD 0).symm
    rw [hmap, ← hself] at this
    exact this
  · intro k s hk
    have := h3 k s (by rw [List.getElem?_map]; exact hk)
    simpa using this

theorem addCustomCmp_spec {T : Type} (ix : OrderIndex) (c : Container) (maker : Product → Res T)
    (cmp : T → T → Ordering) (key : Str) (f : Product → T)
    (hm : ∀ p ∈ c.products, maker p = .ok (f p))
    (hsid : ∀ (i : Nat) (p : Product), c.products[i]? = some p → p.sid = i)
    (total : ∀ p ∈ c.products, ∀ q ∈ c.products, cmp (f p) (f q) ≠ .gt ∨ cmp (f q) (f p) ≠ .gt)
    (trans : ∀ p ∈ c.products, ∀ q ∈ c.products, ∀ r ∈ c.products, cmp (f p) (f q) ≠ .gt →
      cmp (f q) (f r) ≠ .gt → cmp (f p) (f r) ≠ .gt) :
    ∃ ranks, ix.addCustomCmp c maker cmp key = .ok (AMap.insert ix key ranks) ∧
      IsRanking c.products.length (fun i j => ∃ p q, c.products[i]? = some p ∧ c.products[j]? = some q ∧
        cmp (f p) (f q) ≠ .gt ∧ (cmp (f q) (f p) ≠ .gt → i < j)) ranks := by
  generalize hd : c.products.map (fun p => (f p, p.sid)) = data
  let le := fun a b : T × Nat => cmp a.1 b.1 != .gt
  let S := fun a : T × Nat => ∃ p ∈ c.products, a = (f p, p.sid)
  have hS : ∀ b ∈ data, S b := by
    intro b hb; subst hd
    obtain ⟨p, hp, rfl⟩ := List.mem_map.1 hb
    exact ⟨p, hp, rfl⟩
  have tot : ∀ a b, S a → S b → le a b = true ∨ le b a = true := by
    rintro _ _ ⟨p, hp, rfl⟩ ⟨q, hq, rfl⟩
    simpa [le] using total p hp q hq
  have tra : ∀ a b c, S a → S b → S c → le a b = true → le b c = true → le a c = true := by
    rintro _ _ _ ⟨p, hp, rfl⟩ ⟨q, hq, rfl⟩ ⟨r, hr, rfl⟩
    simpa [le] using trans p hp q hq r hr
  have hidx : data.map (·.2) = List.range c.products.length := by
    subst hd
    apply List.ext_getElem?
    intro i
    by_cases hi : i < c.products.length
    · have := hsid i _ (List.getElem?_eq_getElem hi)
      simp [hi, this]
    · simp [hi]
  have hpw : data.Pairwise fun a b => a.2 < b.2 := by
    have := List.pairwise_lt_range (n := c.products.length)
    rw [← hidx, List.pairwise_map] at this
    exact this
  have hst := stableSort_stable_on S tot tra data hS hpw
  have hperm : ((stableSort le data).map (·.2)).Perm (List.range c.products.length) := by
    rw [← hidx]; exact (stableSort_perm le data).map _
  obtain ⟨r, h1, h2, h3⟩ := addCustomCmp_perm ix c maker cmp key f hm hsid
  rw [hd] at h3
  have hrl : r.length = c.products.length := by simpa using h2.length_eq
  refine ⟨r, h1, h2, ?_⟩
  · intro i j ri rj hi hj
    have hil : i < c.products.length := by
      rw [← hrl]; exact (List.getElem?_eq_some_iff.1 hi).1
    have hjl : j < c.products.length := by
      rw [← hrl]; exact (List.getElem?_eq_some_iff.1 hj).1
    -- positions of `i` and `j` in the sorted list
    have find : ∀ i ri, i < c.products.length → r[i]? = some ri →
        ∃ p, c.products[i]? = some p ∧ (stableSort le data)[ri]? = some (f p, i) := by
      intro i ri hil hi
      have : i ∈ (stableSort le data).map (·.2) := hperm.mem_iff.2 (by simpa using hil)
      obtain ⟨k, hk⟩ := List.getElem?_of_mem this
      have e := h3 k i (by rw [List.getElem?_map] at hk; exact hk)
      rw [hi] at e
      have e : ri = k := by simpa using e
      subst e
      rw [List.getElem?_map] at hk
      cases hx : (stableSort le data)[ri]? with
      | none => rw [hx] at hk; simp at hk
      | some x =>
        rw [hx] at hk
        have hx2 : x.2 = i := by simpa using hk
        have hmem : x ∈ data := mem_stableSort.1 (List.mem_of_getElem? hx)
        rw [← hd] at hmem
        obtain ⟨p, hp, rfl⟩ := List.mem_map.1 hmem
        obtain ⟨m, hm⟩ := List.getElem?_of_mem hp
        have := hsid m p hm
        simp only at hx2
        have : m = i := by omega
        subst this
        exact ⟨p, hm, by rw [← hx2]⟩
    obtain ⟨p, hp, hsp⟩ := find i ri hil hi
    obtain ⟨q, hq, hsq⟩ := find j rj hjl hj
    rw [List.pairwise_iff_getElem] at hst
    constructor
    · intro hlt
      obtain ⟨h5, h6⟩ := List.getElem?_eq_some_iff.1 hsp
      obtain ⟨h7, h8⟩ := List.getElem?_eq_some_iff.1 hsq
      have := hst ri rj h5 h7 hlt
      change ((stableSort le data)[ri] |> fun a => le a (stableSort le data)[rj] = true) ∧ _ at this
      rw [h6, h8] at this
      exact ⟨p, q, hp, hq, by simpa [le] using this.1, by simpa [le] using this.2⟩
    · rintro ⟨p', q', hp', hq', h9, h10⟩
      rw [hp] at hp'; cases hp'
      rw [hq] at hq'; cases hq'
      apply Classical.byContradiction
      intro hnl
      rcases Nat.lt_or_eq_of_le (Nat.le_of_not_lt hnl) with hlt | heq
      · obtain ⟨h5, h6⟩ := List.getElem?_eq_some_iff.1 hsp
        obtain ⟨h7, h8⟩ := List.getElem?_eq_some_iff.1 hsq
        have := hst rj ri h7 h5 hlt
        change ((stableSort le data)[rj] |> fun a => le a (stableSort le data)[ri] = true) ∧ _ at this
        rw [h6, h8] at this
        have a1 : cmp (f q) (f p) ≠ .gt := by simpa [le] using this.1
        have a2 : j < i := this.2 (by simpa [le] using h9)
        have := h10 a1
        omega
      · subst heq
        rw [hsp] at hsq
        have : i = j := by simpa using congrArg (fun x => x.map Prod.snd) hsq
        subst this
        have := h10 (by rw [hp] at hq; cases hq; exact h9)
        omega

/-! ## The comparisons -/

theorem bytesCmp_refl (a : Bytes) : bytesCmp a a = .eq := by
  induction a with
  | nil => rfl
  | cons x a ih => simp [bytesCmp, ih]

theorem bytesCmp_swap (a : Bytes) : ∀ b, bytesCmp b a = (bytesCmp a b).swap := by
  induction a with
  | nil => intro b; cases b <;> rfl
  | cons x a ih =>
    intro b
    cases b with
    | nil => rfl
    | cons y b =>
      simp only [bytesCmp]
      by_cases h1 : x < y
      · have h2 : ¬ y < x := UInt8.lt_asymm h1
        simp [h1, h2]
      · by_cases h2 : y < x
        · simp [h1, h2]
        · simp [h1, h2, ih]

theorem bytesCmp_le_trans (a : Bytes) : ∀ b c, bytesCmp a b ≠ .gt → bytesCmp b c ≠ .gt →
    bytesCmp a c ≠ .gt := by
  induction a with
  | nil => intro b c _ _; cases c <;> simp [bytesCmp]
  | cons x a ih =>
    intro b c h1 h2
    cases b with
    | nil => simp [bytesCmp] at h1
    | cons y b =>
      cases c with
      | nil => simp [bytesCmp] at h2
      | cons z c =>
        simp only [bytesCmp] at *
        simp only [UInt8.lt_iff_toNat_lt] at *
        by_cases hxy : x.toNat < y.toNat
        · by_cases hyz : y.toNat < z.toNat
          · have : x.toNat < z.toNat := by omega
            simp [this]
          · by_cases hzy : z.toNat < y.toNat
            · simp [hyz, hzy] at h2
            · have : x.toNat < z.toNat := by omega
              simp [this]
        · by_cases hyx : y.toNat < x.toNat
          · simp [hxy, hyx] at h1
          · simp only [hxy, hyx, if_false] at h1
            by_cases hyz : y.toNat < z.toNat
            · have : x.toNat < z.toNat := by omega
              simp [this]
            · by_cases hzy : z.toNat < y.toNat
              · simp [hyz, hzy] at h2
              · simp only [hyz, hzy, if_false] at h2
                have h3 : ¬ x.toNat < z.toNat := by omega
                have h4 : ¬ z.toNat < x.toNat := by omega
                simp only [h3, h4, if_false]
                exact ih b c h1 h2

theorem strCmp_total (a b : Str) : strCmp a b ≠ .gt ∨ strCmp b a ≠ .gt := by
  unfold strCmp
  rw [bytesCmp_swap (utf8 a) (utf8 b)]
  cases bytesCmp (utf8 a) (utf8 b) <;> simp

/-- A NaN. -/
def F32.IsNan (x : F32) : Prop := x.val = .nan

/-- Position on the extended number line, for comparing. -/
def F32.Val.key : F32.Val → Int × Int
  | .nan => (0, 0)
  | .inf s => (if s then -1 else 1, 0)
  | .fin s n => (0, if s then -(n : Int) else n)

theorem F32.lt_iff {x y : F32} (hx : ¬ x.IsNan) (hy : ¬ y.IsNan) :
    F32.lt x y = true ↔ x.val.key.1 < y.val.key.1 ∨ (x.val.key.1 = y.val.key.1 ∧ x.val.key.2 < y.val.key.2) := by
  unfold F32.IsNan at *
  unfold F32.lt
  cases hvx : x.val with
  | nan => exact absurd hvx hx
  | inf s =>
    cases hvy : y.val with
    | nan => exact absurd hvy hy
    | inf t => cases s <;> cases t <;> simp [F32.Val.lt, F32.Val.key]
    | fin t n => cases s <;> cases t <;> simp [F32.Val.lt, F32.Val.key]
  | fin s m =>
    cases hvy : y.val with
    | nan => exact absurd hvy hy
    | inf t => cases s <;> cases t <;> simp [F32.Val.lt, F32.Val.key]
    | fin t n => simp [F32.Val.lt, F32.Val.key]

theorem F32.cmpOrEq_eq {x y : F32} (hx : ¬ x.IsNan) (hy : ¬ y.IsNan) :
    F32.cmpOrEq x y = if F32.lt x y then .lt else if F32.lt y x then .gt else .eq := by
  unfold F32.IsNan at *
  unfold F32.cmpOrEq F32.partialCmp
  cases hvx : x.val with
  | nan => exact absurd hvx hx
  | inf s =>
    cases hvy : y.val with
    | nan => exact absurd hvy hy
    | inf t => rfl
    | fin t n => rfl
  | fin s m =>
    cases hvy : y.val with
    | nan => exact absurd hvy hy
    | inf t => rfl
    | fin t n => rfl

theorem F32.lt_asymm {x y : F32} (h : F32.lt x y = true) : F32.lt y x = false := by
  have hx : ¬ x.IsNan := by intro e; unfold F32.IsNan at e; simp [F32.lt, e, F32.Val.lt] at h
  have hy : ¬ y.IsNan := by
    intro e; unfold F32.IsNan at e
    unfold F32.lt at h; rw [e] at h
    cases hv : x.val <;> rw [hv] at h <;> simp [F32.Val.lt] at h
  rw [F32.lt_iff hx hy] at h
  cases hb : F32.lt y x with
  | false => rfl
  | true => rw [F32.lt_iff hy hx] at hb; omega

theorem F32.cmpOrEq_ne_gt {x y : F32} (hx : ¬ x.IsNan) (hy : ¬ y.IsNan) :
    F32.cmpOrEq x y ≠ .gt ↔ F32.lt y x = false := by
  rw [F32.cmpOrEq_eq hx hy]
  cases h1 : F32.lt x y with
  | true => simp [F32.lt_asymm h1]
  | false => cases F32.lt y x <;> simp

theorem F32.cmpOrEq_swap_ne_gt {x y : F32} (hx : ¬ x.IsNan) (hy : ¬ y.IsNan) :
    (F32.cmpOrEq x y).swap ≠ .gt ↔ F32.lt x y = false := by
  rw [F32.cmpOrEq_eq hx hy]
  cases h1 : F32.lt x y with
  | true => simp
  | false => cases F32.lt y x <;> simp

theorem F32.le_trans {x y z : F32} (hx : ¬ x.IsNan) (hy : ¬ y.IsNan) (hz : ¬ z.IsNan)
    (h1 : F32.lt y x = false) (h2 : F32.lt z y = false) : F32.lt z x = false := by
  rw [Bool.eq_false_iff] at *
  intro h
  rw [F32.lt_iff hz hx] at h
  rw [Ne, F32.lt_iff hy hx] at h1
  rw [Ne, F32.lt_iff hz hy] at h2
  omega

end Idx
