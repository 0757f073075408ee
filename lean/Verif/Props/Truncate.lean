import Verif.Lemmas.Cut
import Verif.Props.File
/-! C69: exactly which truncated files load, and what is damaged in them. -/
namespace Idx

/-! ## What it takes -/

/-- `v` has `w` digits in base 128, and so takes `w` bytes in a file. -/
def Base128 (v w : Nat) : Prop := 1 ≤ w ∧ v < 128 ^ w ∧ (2 ≤ w → 128 ^ (w - 1) ≤ v)

/-- The numbers of a list have `s` digits in base 128 altogether. -/
inductive DigitSum : List Nat → Nat → Prop
  | nil : DigitSum [] 0
  | cons {v w l s} : Base128 v w → DigitSum l s → DigitSum (v :: l) (w + s)

/-- With the `lost` last digits of a length and the list it belongs to missing, `bad` is read in its place. -/
inductive Spoilt (list : List Nat) (lost : Nat) : List Nat → Prop
  /-- Some but not all digits of the last number are lost: the number is read without its higher digits. -/
  | last {init v w} : list = init ++ [v] → Base128 v w → lost < w → Spoilt list lost (init ++ [v % 128 ^ (w - lost)])
  /-- Some but not all digits of the length are lost, and those left are zeros: nothing is read. -/
  | none {w s k} : Base128 list.length w → DigitSum list s → 1 ≤ k → k < w → 128 ^ k ∣ list.length → lost = w - k + s →
      Spoilt list lost []

/-! ## Base128 and bytes -/

theorem base128_usize {n : Nat} (h : n < 2 ^ 56) : Base128 n (serUsize n).length := by
  have hn : (UInt64.ofNat n).toNat = n := by
    rw [UInt64.toNat_ofNat']; exact Nat.mod_eq_of_lt (by omega)
  obtain ⟨_, h1, h2, h3⟩ := serU64_length (v := UInt64.ofNat n) (by rw [hn]; exact h)
  rw [hn] at h2 h3
  exact ⟨h1, h2, h3⟩

theorem Base128.le {v w w' : Nat} (h : Base128 v w) (h' : Base128 v w') : w ≤ w' := by
  refine Decidable.byContradiction fun hc => ?_
  have h1 := h.2.2 (by have := h'.1; omega)
  have : 128 ^ w' ≤ 128 ^ (w - 1) := Nat.pow_le_pow_right (by omega) (by omega)
  have := h'.2.1
  omega

theorem Base128.unique {v w w' : Nat} (h : Base128 v w) (h' : Base128 v w') : w = w' := Nat.le_antisymm (h.le h') (h'.le h)

theorem DigitSum.unique {l : List Nat} {s s' : Nat} (h : DigitSum l s) (h' : DigitSum l s') : s = s' := by
  induction h generalizing s' with
  | nil => cases h'; rfl
  | cons h1 _ ih => cases h' with
    | cons g1 g2 => rw [h1.unique g1, ih g2]

theorem digitSum_flatMap : ∀ (l : List Nat), (∀ v ∈ l, v < 2 ^ 56) → DigitSum l (l.flatMap serUsize).length
  | [], _ => .nil
  | v :: l, h => by
    rw [List.flatMap_cons, List.length_append]
    exact .cons (base128_usize (h v (by simp))) (digitSum_flatMap l fun v hv => h v (by simp [hv]))

/-- What a list of numbers cut short is read as. -/
theorem cut_ranks {t : Target} (l : List Nat) (hf : Fits t l.length) (hv : ∀ v ∈ l, Carried t v) (p q : Bytes)
    (e : serVec serUsize l = p ++ q) (hq : q ≠ []) (rest : Bytes) (r : List Nat) :
    deVec t (deUsize t) p = .ok (rest, r) ↔ rest = [] ∧ Spoilt l q.length r := by
  have hgood : Good t (deUsize t) fun _ => True := (good_usize t).mono fun _ _ => trivial
  rw [cut_vec (T := fun v p m => p ≠ [] ∧ m = v % 128 ^ p.length) (eats_usize t) (lazy_usize t).stream hgood l hf
    (fun a ha => deUsize_rt (hv a ha)) (fun a ha => cut_usize (hv a ha)) p q e hq rest r]
  have hsum := digitSum_flatMap l fun v h => (hv v h).2
  have hlen := congrArg List.length e
  simp only [serVec, List.length_append] at hlen
  have hdl := base128_usize hf.1.2
  refine and_congr_right fun _ => ⟨?_, ?_⟩
  · rintro (⟨l', v, p₂, v', rfl, ep, hp, ⟨hne, rfl⟩, rfl⟩ | ⟨hp, hne, hd, rfl⟩)
    · have hw := base128_usize (hv v (by simp)).2
      have hp' := hp.length.1
      have := List.length_pos_iff.2 hne
      have ep : p.length = (serUsize (l' ++ [v]).length).length + ((l'.flatMap serUsize).length + p₂.length) :=
        (congrArg List.length ep).trans (List.length_append.trans (congrArg _ List.length_append))
      have e2 : ((l' ++ [v]).flatMap serUsize).length = (l'.flatMap serUsize).length + (serUsize v).length := by simp
      have : p₂.length = (serUsize v).length - q.length := by omega
      rw [this]
      exact .last rfl hw (by omega)
    · have := hp.length.1
      have := List.length_pos_iff.2 hne
      exact .none hdl hsum (k := p.length) this (by omega) hd (by omega)
  · intro h
    have htake : p = (serVec serUsize l).take p.length := by rw [e]; simp
    cases h with
    | @last init v w el hd hlt =>
      subst el
      have hw := hd.unique (base128_usize (hv v (by simp)).2)
      subst hw
      have e2 : ((init ++ [v]).flatMap serUsize).length = (init.flatMap serUsize).length + (serUsize v).length := by simp
      have hk : q.length ≤ (serUsize v).length := by omega
      have hqpos := List.length_pos_iff.2 hq
      refine .inl ⟨init, v, (serUsize v).take ((serUsize v).length - q.length), _, rfl, ?_, ?_, ⟨?_, rfl⟩, ?_⟩
      · rw [htake]
        simp only [serVec, List.flatMap_append, List.flatMap_cons, List.flatMap_nil, List.append_nil]
        rw [List.take_append, List.take_append]
        rw [List.take_of_length_le (by omega), List.take_of_length_le (by omega)]
        congr 3
        omega
      · refine ⟨(serUsize v).drop ((serUsize v).length - q.length), ?_, (List.take_append_drop _ _).symm⟩
        intro hc
        have := congrArg List.length hc
        simp only [List.length_drop, List.length_nil] at this
        omega
      · intro hc
        have := congrArg List.length hc
        simp only [List.length_take, List.length_nil] at this
        omega
      · rw [List.length_take, Nat.min_eq_left (by omega)]
    | @none w s k hw hs h1 h2 h3 h4 =>
      have hw := hw.unique hdl
      have hs := hs.unique hsum
      subst hw hs
      have hk : p.length = k := by omega
      refine .inr ⟨⟨(serUsize l.length).drop k, ?_, ?_⟩, ?_, by rw [hk]; exact h3, rfl⟩
      · intro hc
        have := congrArg List.length hc
        simp only [List.length_drop, List.length_nil] at this
        omega
      · have : p = (serUsize l.length).take k := by
          rw [htake, hk, serVec, List.take_append_of_le_length (by omega)]
        rw [this, List.take_append_drop]
      · intro hc
        rw [hc] at hk
        simp at hk
        omega

theorem Spoilt.lt {l bad : List Nat} {lost : Nat} (h : Spoilt l lost bad) (hl : l.length < 2 ^ 56) (hv : ∀ v ∈ l, v < 2 ^ 56) :
    lost < (serVec serUsize l).length := by
  have hsum := digitSum_flatMap l hv
  have hdl := base128_usize hl
  have e : (serVec serUsize l).length = (serUsize l.length).length + (l.flatMap serUsize).length := List.length_append
  have := hdl.1
  cases h with
  | @last init v w el hd hlt =>
    subst el
    have hw := hd.unique (base128_usize (hv v (by simp)))
    have e2 : ((init ++ [v]).flatMap serUsize).length = (init.flatMap serUsize).length + (serUsize v).length := by simp
    omega
  | @none w s k hw hs h1 h2 h3 h4 =>
    have hw := hw.unique hdl
    have hs := hs.unique hsum
    omega

/-! ## The parts of the file -/

/-- Of the proper prefixes of `pre ++ serVec serUsize l`, `d` accepts those that spoil `l`, as `mk` of what is read
instead. -/
def CutsRanks (s : Bytes) (d : De α) (l : List Nat) (mk : List Nat → α) : Prop :=
  ∀ p q, s = p ++ q → q ≠ [] → ∀ rest a, d p = .ok (rest, a) ↔ rest = [] ∧ ∃ bad, Spoilt l q.length bad ∧ a = mk bad

theorem cut_ranks' {t : Target} (l : List Nat) (hf : Fits t l.length) (hv : ∀ v ∈ l, Carried t v) :
    CutsRanks (serVec serUsize l) (deVec t (deUsize t)) l id := by
  intro p q e hq rest r
  rw [cut_ranks l hf hv p q e hq rest r]
  refine and_congr_right fun _ => ⟨fun h => ⟨r, h, rfl⟩, ?_⟩
  rintro ⟨_, h, rfl⟩
  exact h

theorem CutsRanks.cut {s : Bytes} {d : De α} {l : List Nat} {mk : List Nat → α} (h : CutsRanks s d l mk) :
    Cut s d fun p a => ∃ bad, Spoilt l (s.length - p.length) bad ∧ a = mk bad := by
  intro p q e hq rest a
  rw [h p q e hq rest a, e]
  simp

theorem CutsRanks.of_cut {s : Bytes} {d : De α} {l : List Nat} {mk : List Nat → α} {T : Bytes → α → Prop} (h : Cut s d T)
    (hT : ∀ p q, s = p ++ q → q ≠ [] → ∀ a, T p a ↔ ∃ bad, Spoilt l q.length bad ∧ a = mk bad) : CutsRanks s d l mk := by
  intro p q e hq rest a
  rw [h p q e hq rest a, hT p q e hq a]

theorem CutsRanks.bind_pure {s : Bytes} {d : De α} {l : List Nat} {mk : List Nat → α} {f : α → β} (h : CutsRanks s d l mk) :
    CutsRanks s (d >>= fun a => Pure.pure (f a)) l fun bad => f (mk bad) := by
  refine .of_cut h.cut.bind_pure fun p q e hq b => ?_
  have : s.length - p.length = q.length := by rw [e]; simp
  rw [this]
  constructor
  · rintro ⟨_, ⟨bad, h, rfl⟩, rfl⟩; exact ⟨bad, h, rfl⟩
  · rintro ⟨bad, h, rfl⟩; exact ⟨_, ⟨bad, h, rfl⟩, rfl⟩

theorem CutsRanks.bind_eats {s₁ s₂ : Bytes} {d : De α} {f : α → De β} {a : α} {l : List Nat} {mk : List Nat → β} (hs : Stream d)
    (h1 : RT s₁ d a) (hf : ∀ b, Eats (f b)) (h : CutsRanks s₂ (f a) l mk)
    (hl : ∀ lost bad, Spoilt l lost bad → lost < s₂.length) : CutsRanks (s₁ ++ s₂) (d >>= f) l mk := by
  refine .of_cut (Cut.bind_eats hs h1 hf h.cut) fun p q e hq b => ?_
  have hlen := congrArg List.length e
  simp only [List.length_append] at hlen
  constructor
  · rintro ⟨p₂, rfl, hp, bad, h2, rfl⟩
    refine ⟨bad, ?_, rfl⟩
    rw [List.length_append] at hlen
    rwa [show s₂.length - p₂.length = q.length by omega] at h2
  · rintro ⟨bad, h2, rfl⟩
    have hlt := hl _ _ h2
    rcases List.append_eq_append_iff.1 e with ⟨u, rfl, hu⟩ | ⟨u, rfl, hu⟩
    · refine ⟨u, rfl, ⟨q, hq, hu⟩, bad, ?_, rfl⟩
      rw [hu, List.length_append, show u.length + q.length - u.length = q.length by omega]
      exact h2
    · have := congrArg List.length hu
      rw [List.length_append] at this
      omega

/-- The last entry of a list of pairs can be cut, in its ranks. -/
theorem cut_entries {t : Target} (key : Str) (ranks : List Nat) (hf : Fits t ranks.length) (hv : ∀ v ∈ ranks, Carried t v)
    (hk : RT (serStr key) (deStr t) key) : ∀ (others : List (Str × List Nat)),
    (∀ e ∈ others, RT (serStr e.1) (deStr t) e.1 ∧ Fits t e.2.length ∧ ∀ v ∈ e.2, Carried t v) →
    CutsRanks ((others ++ [(key, ranks)]).flatMap fun e => serStr e.1 ++ serVec serUsize e.2)
      (De.times (others ++ [(key, ranks)]).length (do let k ← deStr t; let v ← deVec t (deUsize t); pure (k, v)))
      ranks fun bad => others ++ [(key, bad)] := by
  have hgood : Good t (deUsize t) fun _ => True := (good_usize t).mono fun _ _ => trivial
  have hlt : ∀ lost bad, Spoilt ranks lost bad → lost < (serVec serUsize ranks).length :=
    fun lost bad h => h.lt hf.1.2 fun v h => (hv v h).2
  have hlast : CutsRanks (serStr key ++ serVec serUsize ranks)
      (do let k ← deStr t; let v ← deVec t (deUsize t); pure (k, v)) ranks fun bad => (key, bad) := by
    refine CutsRanks.bind_eats (lazy_str t).stream hk (fun k => ?_) (CutsRanks.bind_pure (f := fun v => (key, v)) (cut_ranks' ranks hf hv)) hlt
    exact (eats_vec t _ hgood).bind (Q := fun _ _ => True) (good_vec (good_usize t)) fun _ _ => Good.pure trivial
  have hgoodE : Good t (do let k ← deStr t; let v ← deVec t (deUsize t); pure (k, v) : De (Str × List Nat)) fun _ => True :=
    ((lazy_str t).bind fun _ _ => (lazy_vec (lazy_usize t)).bind fun _ _ => Lazy.true).good
  have heats : Eats (do let k ← deStr t; let v ← deVec t (deUsize t); pure (k, v) : De (Str × List Nat)) :=
    (eats_str t).bind (Q := fun _ _ => True) (good_str t) fun _ _ => ((lazy_vec (lazy_usize t)).bind fun _ _ => Lazy.true).good
  intro others
  induction others with
  | nil =>
    intro _
    have := hlast.bind_pure (f := fun e => [e])
    rw [List.nil_append, List.flatMap_cons, List.flatMap_nil, List.append_nil]
    exact this
  | cons e others ih =>
    intro h
    have ih := ih fun e' he => h e' (by simp [he])
    obtain ⟨g1, g2, g3⟩ := h e (by simp)
    rw [List.cons_append, List.flatMap_cons]
    show CutsRanks _ (De.times ((others ++ [(key, ranks)]).length + 1) _) _ _
    unfold De.times
    refine CutsRanks.bind_eats ?_ (RT.bind g1 (RT.bind_pure (f := fun v => (e.1, v)) (deVec_rt e.2 g2 fun a ha => deUsize_rt (g3 a ha))))
      (fun b => ?_) (ih.bind_pure (f := fun l => e :: l)) fun lost bad hs => ?_
    · exact ((lazy_str t).bind fun _ _ => (lazy_vec (lazy_usize t)).bind (Q := fun _ => True) fun _ _ => Lazy.true).stream
    · rw [List.length_append]
      exact (eats_times heats hgoodE _).bind (Q := fun _ _ => True) (hgoodE.times _) fun _ _ => Good.pure trivial
    · have := hlt lost bad hs
      simp only [List.flatMap_append, List.flatMap_cons, List.flatMap_nil, List.length_append, List.length_nil]
      omega

/-- Of the three orders, the one written last can be cut. -/
theorem cut_orders {t : Target} (o : HashOrd) (ix : OrderIndex) (hwf : AMap.Wf ix) (h3 : ix.length < 128) (h7 : Fits t ix.length)
    (hr : ∀ e ∈ ix, RT (serStr e.1) (deStr t) e.1 ∧ Fits t e.2.length ∧ ∀ v ∈ e.2, Carried t v)
    (others : List (Str × List Nat)) (key : Str) (ranks : List Nat) (ho : o.order "orders" ix = others ++ [(key, ranks)]) :
    CutsRanks (serOrders o ix) (deOrders t) ranks (fun bad => others ++ [(key, bad)]) := by
  have hp := o.perm "orders" ix
  have hmem : ∀ e ∈ others ++ [(key, ranks)], e ∈ ix := fun e he => hp.mem_iff.1 (ho ▸ he)
  obtain ⟨hk, hf, hv⟩ := hr _ (hmem (key, ranks) (by simp))
  have hl : (o.order "orders" ix).length < 128 := by rw [hp.length_eq]; exact h3
  have hlt : ∀ lost bad, Spoilt ranks lost bad → lost < ((o.order "orders" ix).flatMap fun e => serStr e.1 ++ serVec serUsize e.2).length := by
    intro lost bad h
    have := h.lt hf.1.2 fun v h => (hv v h).2
    rw [ho]
    simp only [List.flatMap_append, List.flatMap_cons, List.flatMap_nil, List.length_append, List.length_nil]
    omega
  have hcut := cut_entries key ranks hf hv hk others fun e he => hr e (hmem e (by simp [he]))
  rw [← ho] at hcut
  have hcut := hcut.bind_pure (f := AMap.collect)
  have hcollect : ∀ bad, AMap.collect (others ++ [(key, bad)]) = others ++ [(key, bad)] := by
    intro bad
    refine AMap.collect_of_wf ?_
    have := hwf.perm hp
    rw [ho] at this
    simpa [AMap.Wf] using this
  simp only [hcollect] at hcut
  have e : serOrders o ix = serUsize (o.order "orders" ix).length ++
      (o.order "orders" ix).flatMap fun e => serStr e.1 ++ serVec serUsize e.2 := rfl
  rw [e]
  have hlen : Fits t (o.order "orders" ix).length := by rw [hp.length_eq]; exact h7
  have c1 : Cut (serUsize (o.order "orders" ix).length) (deLen t "map") fun _ _ => False := by
    intro p q e hq rest a
    have h1 := serUsize_one hl
    have hnil : p = [] := by
      have := congrArg List.length e
      rw [List.length_append] at this
      have := List.length_pos_iff.2 hq
      exact List.length_eq_zero_iff.1 (by omega)
    subst hnil
    constructor
    · intro h; exact absurd h ((eats_len t _).nil _ _)
    · intro h; exact h.2.elim
  refine .of_cut (Cut.bind (U := fun _ _ => False) (deLen_rt hlen "map") c1 (fun _ _ _ h => h.elim) hcut.cut) fun p q e hq b => ?_
  have hlen := congrArg List.length e
  rw [List.length_append, List.length_append] at hlen
  constructor
  · rintro (⟨p₂, rfl, _, bad, h2, rfl⟩ | ⟨_, _, h, _⟩)
    · refine ⟨bad, ?_, rfl⟩
      rw [List.length_append] at hlen
      generalize (List.flatMap (fun e => serStr e.1 ++ serVec serUsize e.2) (o.order "orders" ix)).length = m at h2 hlen
      rwa [show m - p₂.length = q.length by omega] at h2
    · exact h.elim
  · rintro ⟨bad, h2, rfl⟩
    have hlt := hlt _ _ h2
    rcases List.append_eq_append_iff.1 e with ⟨u, rfl, hu⟩ | ⟨u, _, hu⟩
    · refine .inl ⟨u, rfl, ⟨q, hq, hu⟩, bad, ?_, rfl⟩
      rw [hu, List.length_append, show u.length + q.length - u.length = q.length by omega]
      exact h2
    · have := congrArg List.length hu
      rw [List.length_append] at this
      omega

/-! ## The claim -/

/-- A file cut short loads exactly when what is left spoils the ranks of the order written last; everything else is
then loaded as from the whole file. -/
theorem C69 {t o lower parse n input ix cl} (hn : 1 ≤ n) (h : buildAll t o lower parse n input = .ok (ix, cl))
    (o' : HashOrd) (t' : Target) (hf : Fits t' (serializeAll o' ix cl).length) :
    ∃ ix₀ cl₀ others key ranks, deserializeAll t' n (serializeAll o' ix cl) = .ok (ix₀, cl₀) ∧
      cl₀.order = others ++ [(key, ranks)] ∧ ranks.Perm (List.range input.length) ∧
      (∀ lost bad, Spoilt ranks lost bad → lost < (serializeAll o' ix cl).length) ∧
      ∀ bytes missing, serializeAll o' ix cl = bytes ++ missing → missing ≠ [] → ∀ ix' cl',
        deserializeAll t' n bytes = .ok (ix', cl') ↔
          ∃ bad, Spoilt ranks missing.length bad ∧ ix' = ix₀ ∧ cl' = { cl₀ with order := others ++ [(key, bad)] } := by
  have hopt := buildAll_container h
  have hg := gramWf_of_built hn h
  have hc := classicWf_of_built h
  obtain ⟨h3, hranks⟩ := orders_small hopt
  have hp := o'.perm "orders" cl.order
  obtain ⟨others, ⟨key, ranks⟩, ho⟩ : ∃ others e, o'.order "orders" cl.order = others ++ [e] := by
    rcases List.eq_nil_or_concat (o'.order "orders" cl.order) with h | ⟨l, e, h⟩
    · have := hp.length_eq
      rw [h, h3] at this
      cases this
    · exact ⟨l, e, by rw [h, List.concat_eq_append]⟩
  have hperm := hranks _ (hp.mem_iff.1 (by rw [ho]; simp : (key, ranks) ∈ o'.order "orders" cl.order))
  refine ⟨reloadGram o' ix, reloadClassic o' cl, others, key, ranks, ?_, ho, hperm, ?_⟩
  · have := deserializeAll_fit o' hg hc hf []
    rwa [List.append_nil] at this
  have hpl : ix.container.products.length ≤ (serGramIndex o' ix).length := by
    have := products_le o' ix.container
    simp only [serGramIndex, List.length_append]; omega
  have hboth : (∀ lost bad, Spoilt ranks lost bad → lost < (serializeAll o' ix cl).length) ∧
      CutsRanks (serializeAll o' ix cl) (deBoth t' n) ranks fun bad =>
        (reloadGram o' ix, { reloadClassic o' cl with order := others ++ [(key, bad)] }) := by
    have hff := hf
    simp only [serializeAll, List.length_append] at hf
    have hfc := hf
    simp only [serClassic, List.length_append] at hfc
    have e : serClassic o' cl = serCategories cl.categories ++ (serTags cl.tags ++ serOrders o' cl.order) := by
      simp [serClassic, List.append_assoc]
    have hcF : Fits t' ix.container.products.length := hf.mono (by omega)
    have hentry : ∀ e ∈ cl.order, RT (serStr e.1) (deStr t') e.1 ∧ Fits t' e.2.length ∧ ∀ v ∈ e.2, Carried t' v := by
      intro e he
      have hm := length_le_flatMap (ser := fun p : Str × List Nat => serStr p.1 ++ serVec serUsize p.2) (hp.mem_iff.2 he)
      simp only [List.length_append] at hm
      have hvl := length_flatMap_ge (l := e.2) (ser := serUsize) fun a _ => serU64Loop_pos 9 _
      have hol : (serStr e.1).length + (serVec serUsize e.2).length ≤ (serOrders o' cl.order).length := by
        simp only [serOrders, serMap, serMapEntries, List.length_append]
        omega
      have hvl' : e.2.length ≤ (serVec serUsize e.2).length := by
        simp only [serVec, List.length_append]; omega
      refine ⟨deStr_rt' (hfc.mono (by omega)), hfc.mono (by omega), fun v hv => ?_⟩
      have hpe := hranks e he
      have hle := hpe.length_eq
      rw [List.length_range] at hle
      have := List.mem_range.1 (hpe.mem_iff.1 hv)
      exact (hfc.mono (by omega) : Fits t' v).1
    have h3F : Fits t' cl.order.length := by
      refine hfc.mono ?_
      have := length_flatMap_ge (l := o'.order "orders" cl.order) (ser := fun p : Str × List Nat => serStr p.1 ++ serVec serUsize p.2)
        fun a _ => by have := serStr_pos a.1; simp only [List.length_append]; omega
      rw [hp.length_eq] at this
      simp only [serOrders, serMap, serMapEntries, List.length_append]
      omega
    have hco := cut_orders o' cl.order hc.order (by omega) h3F hentry others key ranks ho
    obtain ⟨_, hrf, hrv⟩ := hentry _ (hp.mem_iff.1 (by rw [ho]; simp : (key, ranks) ∈ o'.order "orders" cl.order))
    have hlt : ∀ lost bad, Spoilt ranks lost bad → lost < (serOrders o' cl.order).length := by
      intro lost bad h
      have := h.lt hrf.1.2 fun v h => (hrv v h).2
      simp only [serOrders, serMap, serMapEntries, ho, List.flatMap_append, List.flatMap_cons, List.flatMap_nil, List.length_append,
        List.length_nil]
      omega
    have hcl : CutsRanks (serClassic o' cl) (deClassic t' (reloadGram o' ix).container) ranks fun bad =>
        { reloadClassic o' cl with order := others ++ [(key, bad)] } := by
      rw [e]
      refine CutsRanks.bind_eats (a := reloadCategories 0 cl.categories) (lazy_categories t' _).stream ?_ (fun cats => ?_) ?_ ?_
      · have h1 := length_flatMap_ge (l := cl.categories) (ser := serCategory) fun a _ => serCategory_pos a
        simp only [serCategories, List.length_append] at hfc
        refine RT.bind (deLen_rt (hfc.mono (by omega)) _) ?_
        exact deCategoriesLoop_fit rfl hcF cl.categories 0 hc.options (hfc.mono (by omega))
      · exact (eats_tags t' _).bind (t := t') (P := fun _ => True) (Q := fun _ _ => True) (lazy_tags t' _).good fun _ _ =>
          ((lazy_orders t').bind (Q := fun _ => True) fun _ _ => Lazy.true).good
      · refine CutsRanks.bind_eats (lazy_tags t' _).stream (deTags_fit rfl hcF hc.tags hc.tagIds (hfc.mono (by omega))) (fun _ => ?_)
          hco.bind_pure hlt
        exact (eats_orders t').bind (t := t') (P := fun _ => True) (Q := fun _ _ => True) (lazy_orders t').good fun _ _ => Good.pure trivial
      · intro lost bad h
        have := hlt lost bad h
        rw [List.length_append]; omega
    refine ⟨fun lost bad h => ?_, ?_⟩
    · have := hlt lost bad h
      rw [serializeAll, e, List.length_append, List.length_append, List.length_append]; omega
    refine CutsRanks.bind_eats (lazy_gram t' n).stream (deGramIndex_fit o' hg (hf.mono (by omega))) (fun ix' => ?_) hcl.bind_pure ?_
    · exact (eats_classic t' _).bind (t := t') (P := fun _ => True) (Q := fun _ _ => True) (lazy_classic t' _).good fun _ _ =>
        Good.pure trivial
    · intro lost bad h
      have := hlt lost bad h
      rw [e, List.length_append, List.length_append]; omega
  refine ⟨hboth.1, ?_⟩
  replace hboth := hboth.2
  intro bytes missing eb hne ix' cl'
  rw [deserializeAll_eq, Res.bind_eq_ok]
  constructor
  · rintro ⟨⟨rest, r⟩, h1, h2⟩
    simp only [Res.ok.injEq] at h2
    subst h2
    obtain ⟨_, bad, h3, h4⟩ := (hboth bytes missing eb hne _ _).1 h1
    simp only [Prod.mk.injEq] at h4
    exact ⟨bad, h3, h4.1, h4.2⟩
  · rintro ⟨bad, h1, rfl, rfl⟩
    exact ⟨_, (hboth bytes missing eb hne [] _).2 ⟨rfl, bad, h1, rfl⟩, rfl⟩

theorem Base128.two_le {v w : Nat} (h : Base128 v w) : 2 ≤ w ↔ 128 ≤ v := by
  constructor
  · intro hw
    have h1 := h.2.2 hw
    have : 128 ^ 1 ≤ 128 ^ (w - 1) := Nat.pow_le_pow_right (by omega) (by omega)
    omega
  · intro hv
    have := h.1
    refine Decidable.byContradiction fun hc => ?_
    have : w = 1 := by omega
    have := h.2.1
    subst w
    omega

/-- Some truncation of a file loads exactly when the number of products is a positive multiple of 128 or the last
product has rank 128 or more in the order written last. -/
theorem C69_some {t o lower parse n input ix cl} (hn : 1 ≤ n) (h : buildAll t o lower parse n input = .ok (ix, cl))
    (o' : HashOrd) (t' : Target) (hf : Fits t' (serializeAll o' ix cl).length) :
    ∃ ix₀ cl₀ others key ranks, deserializeAll t' n (serializeAll o' ix cl) = .ok (ix₀, cl₀) ∧
      cl₀.order = others ++ [(key, ranks)] ∧
      ((∃ bytes missing, serializeAll o' ix cl = bytes ++ missing ∧ missing ≠ [] ∧ ∃ r, deserializeAll t' n bytes = .ok r) ↔
        (input ≠ [] ∧ 128 ∣ input.length) ∨ ∃ r, ranks.getLast? = some r ∧ 128 ≤ r) := by
  obtain ⟨ix₀, cl₀, others, key, ranks, h1, h2, h3, h4, h5⟩ := C69 hn h o' t' hf
  refine ⟨ix₀, cl₀, others, key, ranks, h1, h2, ?_⟩
  have hlen : ranks.length = input.length := by rw [h3.length_eq, List.length_range]
  have hsmall : ∀ v ∈ ranks, v < input.length := fun v hv => List.mem_range.1 (h3.mem_iff.1 hv)
  have hin : input.length < 2 ^ 56 := by
    have h6 := products_le o' ix.container
    obtain ⟨prices, b⟩ := (builtAll_of_ok h).built
    have h7 := b.length
    have h8 := hf.1.2
    simp only [serializeAll, serGramIndex, List.length_append] at h8
    omega
  constructor
  · rintro ⟨bytes, missing, e, hne, ⟨ix', cl'⟩, hd⟩
    have hpos := List.length_pos_iff.2 hne
    obtain ⟨bad, hs, _⟩ := (h5 bytes missing e hne ix' cl').1 hd
    cases hs with
    | @last init v w el hd hlt =>
      exact .inr ⟨v, by rw [el]; simp, hd.two_le.1 (by omega)⟩
    | @none w s k hw hs h6 h7 h8 h9 =>
      rw [hlen] at hw h8
      have := hw.two_le.1 (by omega)
      refine .inl ⟨fun hc => by rw [hc] at this; simp at this, ?_⟩
      exact Nat.dvd_trans ⟨128 ^ (k - 1), by rw [← Nat.pow_add_one', show k - 1 + 1 = k by omega]⟩ h8
  · intro hor
    have key : ∃ lost bad, 1 ≤ lost ∧ Spoilt ranks lost bad := by
      rcases hor with ⟨hne, hdvd⟩ | ⟨r, hr, h128⟩
      · have hpos := List.length_pos_iff.2 hne
        have hw := base128_usize hin
        have hw2 := hw.two_le.2 (Nat.le_of_dvd hpos hdvd)
        exact ⟨(serUsize input.length).length - 1 + (ranks.flatMap serUsize).length, [], by omega, .none (k := 1) (by rw [hlen]; exact hw) (digitSum_flatMap ranks fun v hv => by have := hsmall v hv; omega)
          (by omega) (by omega) (by rw [hlen]; exact hdvd) rfl⟩
      · obtain ⟨init, rfl⟩ := List.getLast?_eq_some_iff.1 hr
        have hw := base128_usize (n := r) (by have := hsmall r (by simp); omega)
        have hw2 := hw.two_le.2 h128
        exact ⟨1, _, by omega, .last rfl hw (by omega)⟩
    obtain ⟨lost, bad, hl, hs⟩ := key
    have hlt := h4 lost bad hs
    refine ⟨(serializeAll o' ix cl).take ((serializeAll o' ix cl).length - lost),
      (serializeAll o' ix cl).drop ((serializeAll o' ix cl).length - lost), (List.take_append_drop _ _).symm, ?_, ?_⟩
    · intro hc
      have := congrArg List.length hc
      simp only [List.length_drop, List.length_nil] at this
      omega
    · refine ⟨_, (h5 _ _ (List.take_append_drop _ _).symm ?_ _ _).2 ⟨bad, ?_, rfl, rfl⟩⟩
      · intro hc
        have := congrArg List.length hc
        simp only [List.length_drop, List.length_nil] at this
        omega
      · rw [List.length_drop, show (serializeAll o' ix cl).length - ((serializeAll o' ix cl).length - lost) = lost by omega]
        exact hs

/-- With 129 products in catalogue order, losing one byte turns the last rank into 0. -/
example : Spoilt (List.range 129) 1 (List.range 128 ++ [0]) :=
  .last (v := 128) (w := 2) (by decide +kernel) ⟨by decide, by decide, by decide⟩ (by decide)

set_option maxRecDepth 10000 in
/-- With 128 products, losing all ranks and half of their number leaves an order without ranks. -/
example : ∃ s, Spoilt (List.range 128) (1 + s) [] :=
  ⟨_, .none (w := 2) (k := 1) ⟨by decide, by decide, by decide⟩ (digitSum_flatMap (List.range 128) (by decide +kernel)) (by decide) (by decide)
    (by decide +kernel) rfl⟩

set_option maxRecDepth 100000 in
/-- The hypotheses of `C69` are met by `manyProducts`. -/
example : ∃ ix cl, buildAll .debug64 .ident (fun c => [c]) parseOne 1 manyProducts = .ok (ix, cl) ∧
    Fits .wasm32 (serializeAll .ident ix cl).length := by
  have h : ((runFile .debug64 parseOne 1 manyProducts).map List.length) = some 1496 := by decide +kernel
  obtain ⟨b, hb, h2⟩ := Option.map_eq_some_iff.1 h
  obtain ⟨ix, cl, h3, h4, _⟩ := runFile_sound (by decide) (by decide) hb
  refine ⟨ix, cl, h3, ?_⟩
  rw [h4, h2]
  exact Fits.of_carried ⟨by decide, by decide⟩ fun _ _ => rfl

end Idx
