import Verif.Lemmas.Stream
import Verif.Lemmas.Codec
/-! Which proper prefixes of the bytes of a value a decoder accepts, and as what. -/
namespace Idx

/-- Of the proper prefixes of `s`, `d` accepts exactly those in `T`, reading them to their end. -/
def Cut (s : Bytes) (d : De α) (T : Bytes → α → Prop) : Prop :=
  ∀ p q, s = p ++ q → q ≠ [] → ∀ rest a, d p = .ok (rest, a) ↔ rest = [] ∧ T p a

/-- `p` is a proper prefix of `s`. -/
def Proper (p s : Bytes) : Prop := ∃ q, q ≠ [] ∧ s = p ++ q

theorem Cut.congr {s : Bytes} {d : De α} {T T' : Bytes → α → Prop} (h : Cut s d T) (e : ∀ p a, Proper p s → (T p a ↔ T' p a)) :
    Cut s d T' := by
  intro p q hs hq rest a
  rw [h p q hs hq rest a, e p a ⟨q, hq, hs⟩]

theorem Cut.bind {s₁ s₂ : Bytes} {d : De α} {f : α → De β} {a : α} {T₁ : Bytes → α → Prop} {T₂ : Bytes → β → Prop}
    {U : α → β → Prop} (h1 : RT s₁ d a) (c1 : Cut s₁ d T₁)
    (hU : ∀ p b, Proper p s₁ → T₁ p b → ∀ rest c, f b [] = .ok (rest, c) ↔ rest = [] ∧ U b c) (c2 : Cut s₂ (f a) T₂) :
    Cut (s₁ ++ s₂) (d >>= f) fun p c =>
      (∃ p₂, p = s₁ ++ p₂ ∧ Proper p₂ s₂ ∧ T₂ p₂ c) ∨ (∃ b, Proper p s₁ ∧ T₁ p b ∧ U b c) := by
  intro p q e hq rest c
  rw [De.bind_apply, Res.bind_eq_ok]
  have hcase : (∃ u, p = s₁ ++ u ∧ s₂ = u ++ q) ∨ Proper p s₁ := by
    rcases List.append_eq_append_iff.1 e with ⟨u, h, hu⟩ | ⟨u, h, hu⟩
    · exact .inl ⟨u, h, hu⟩
    · by_cases hu' : u = []
      · subst hu'
        exact .inl ⟨[], by simpa using h.symm, by simpa using hu.symm⟩
      · exact .inr ⟨u, hu', h⟩
  rcases hcase with ⟨u, rfl, hu⟩ | hp
  · have hnot : ¬Proper (s₁ ++ u) s₁ := by
      rintro ⟨v, hv, e⟩
      have := congrArg List.length e
      have : v.length = 0 := by simp only [List.length_append] at this; omega
      exact hv (List.length_eq_zero_iff.1 this)
    constructor
    · rintro ⟨⟨r, a'⟩, h3, h4⟩
      rw [h1 u] at h3
      simp only [Res.ok.injEq, Prod.mk.injEq] at h3
      obtain ⟨rfl, rfl⟩ := h3
      obtain ⟨g1, g2⟩ := (c2 u q hu hq rest c).1 h4
      exact ⟨g1, .inl ⟨u, rfl, ⟨q, hq, hu⟩, g2⟩⟩
    · rintro ⟨rfl, ⟨p₂, hp, _, ht⟩ | ⟨b, hp, _⟩⟩
      · have : u = p₂ := List.append_cancel_left hp
        subst this
        exact ⟨(u, a), h1 u, (c2 u q hu hq [] c).2 ⟨rfl, ht⟩⟩
      · exact absurd hp hnot
  · have hnot : ∀ p₂, p ≠ s₁ ++ p₂ := by
      rintro p₂ rfl
      obtain ⟨v, hv, e⟩ := hp
      have := congrArg List.length e
      have : v.length = 0 := by simp only [List.length_append] at this; omega
      exact hv (List.length_eq_zero_iff.1 this)
    obtain ⟨v, hv, ev⟩ := hp
    constructor
    · rintro ⟨⟨r, b⟩, h3, h4⟩
      obtain ⟨rfl, ht⟩ := (c1 p v ev hv r b).1 h3
      obtain ⟨g1, g2⟩ := (hU p b ⟨v, hv, ev⟩ ht rest c).1 h4
      exact ⟨g1, .inr ⟨b, ⟨v, hv, ev⟩, ht, g2⟩⟩
    · rintro ⟨rfl, ⟨p₂, hp, _⟩ | ⟨b, _, ht, hu⟩⟩
      · exact absurd hp (hnot p₂)
      · exact ⟨([], b), (c1 p v ev hv [] b).2 ⟨rfl, ht⟩, (hU p b ⟨v, hv, ev⟩ ht [] c).2 ⟨rfl, hu⟩⟩

/-- When whatever follows the first part consumes something, only the second part can be cut. -/
theorem Cut.bind_eats {s₁ s₂ : Bytes} {d : De α} {f : α → De β} {a : α} {T : Bytes → β → Prop} (hs : Stream d)
    (h1 : RT s₁ d a) (hf : ∀ b, Eats (f b)) (c2 : Cut s₂ (f a) T) :
    Cut (s₁ ++ s₂) (d >>= f) fun p c => ∃ p₂, p = s₁ ++ p₂ ∧ Proper p₂ s₂ ∧ T p₂ c := by
  have c1 : Cut s₁ d fun p b => d p = .ok ([], b) := by
    intro p q e hq rest b
    constructor
    · intro h
      have := rest_of_prefix hs h1 e h
      subst this
      exact ⟨rfl, h⟩
    · rintro ⟨rfl, h⟩; exact h
  refine (Cut.bind (U := fun _ _ => False) h1 c1 ?_ c2).congr fun p c _ => ?_
  · intro p b _ _ rest c
    constructor
    · intro h; exact absurd h ((hf b).nil _ _)
    · intro h; exact h.2.elim
  · constructor
    · rintro (h | ⟨_, _, _, h⟩)
      · exact h
      · exact h.elim
    · exact .inl

theorem Cut.bind_pure {s : Bytes} {d : De α} {f : α → β} {T : Bytes → α → Prop} (h : Cut s d T) :
    Cut s (d >>= fun a => Pure.pure (f a)) fun p b => ∃ a, T p a ∧ b = f a := by
  intro p q e hq rest b
  rw [De.bind_apply, Res.bind_eq_ok]
  constructor
  · rintro ⟨⟨r, a⟩, h3, h4⟩
    simp only [De.pure_apply, Res.ok.injEq, Prod.mk.injEq] at h4
    obtain ⟨rfl, rfl⟩ := h4
    obtain ⟨g1, g2⟩ := (h p q e hq _ _).1 h3
    exact ⟨g1, a, g2, rfl⟩
  · rintro ⟨rfl, a, ht, rfl⟩
    exact ⟨([], a), (h p q e hq _ _).2 ⟨rfl, ht⟩, rfl⟩

/-! ## Numbers -/

/-- The loop on the beginning of an encoding. -/
theorem deLoop_cut (f : Nat) : ∀ (k : Nat) (v out : UInt64) (acc e : Nat), k < (serU64Loop f v).length → e + k ≤ 8 →
    acc < 2 ^ (7 * e) → out.toNat = acc * 2 ^ (64 - 7 * e) →
    ∃ out' : UInt64, deU64Loop ((serU64Loop f v).take k) out e = some ([], out', e + k) ∧
      out'.toNat = (acc + v.toNat % 2 ^ (7 * k) * 2 ^ (7 * e)) * 2 ^ (64 - 7 * (e + k)) := by
  induction f with
  | zero => intro k v out acc e hk; simp [serU64Loop] at hk
  | succ f ih =>
    intro k v out acc e hk he hacc hout
    cases k with
    | zero =>
      refine ⟨out, by simp [deU64Loop], ?_⟩
      rw [hout, Nat.mul_zero, Nat.pow_zero, Nat.mod_one, Nat.zero_mul, Nat.add_zero, Nat.add_zero]
    | succ k =>
      by_cases hlt : v.toNat < 128
      · rw [serLoop_lt f v hlt] at hk
        simp at hk
      · rw [serLoop_ge f v hlt] at hk ⊢
        rw [List.take_succ_cons]
        rw [deLoop_more _ _ _ _ (by omega) (by rw [or80_toNat]; omega)]
        have hstep := out_step out ((v.toUInt8 &&& 0x7f) ||| 0x80) acc e (by omega) hacc hout
        rw [or80_toNat] at hstep
        have hmod : (v.toNat % 128 + 128) % 128 = v.toNat % 128 := by omega
        rw [hmod] at hstep
        have hacc' : acc + v.toNat % 128 * 2 ^ (7 * e) < 2 ^ (7 * (e + 1)) := by
          have h1 : 2 ^ (7 * (e + 1)) = 128 * 2 ^ (7 * e) := by
            rw [show 7 * (e + 1) = 7 + 7 * e by omega, Nat.pow_add]
          have h2 : v.toNat % 128 * 2 ^ (7 * e) ≤ 127 * 2 ^ (7 * e) := Nat.mul_le_mul_right _ (by omega)
          omega
        obtain ⟨out', h1, h2⟩ := ih k (v >>> 7) _ _ (e + 1) (by simpa using hk) (by omega) hacc' hstep
        refine ⟨out', ?_, ?_⟩
        · rw [h1]; simp only [Option.some.injEq, Prod.mk.injEq, true_and]; omega
        · rw [h2, shr7_toNat, show e + 1 + k = e + (k + 1) by omega]
          congr 1
          have hsplit : v.toNat % 2 ^ (7 * (k + 1)) = v.toNat % 128 + 128 * (v.toNat / 128 % 2 ^ (7 * k)) := by
            rw [show 7 * (k + 1) = 7 + 7 * k by omega, Nat.pow_add, Nat.mod_mul]
          rw [hsplit, show 7 * (e + 1) = 7 + 7 * e by omega, Nat.pow_add, Nat.add_mul, Nat.add_assoc]
          congr 2
          rw [← Nat.mul_assoc, Nat.mul_comm (v.toNat / 128 % 2 ^ (7 * k))]

theorem serU64_length {v : UInt64} (h : v.toNat < 2 ^ 56) : (serU64 v).length ≤ 8 ∧ 1 ≤ (serU64 v).length ∧
    v.toNat < 128 ^ (serU64 v).length ∧ (2 ≤ (serU64 v).length → 128 ^ ((serU64 v).length - 1) ≤ v.toNat) := by
  obtain ⟨out', h1, h2, h3, h4, h5, h6⟩ :=
    deLoop_small 10 v 0 0 0 [] (by omega) (by omega) (Nat.lt_trans h (by decide)) (by decide) (by simp)
  have e : ∀ k, (128 : Nat) ^ k = 2 ^ (7 * k) := fun k => by rw [Nat.pow_mul]
  rw [e, e]
  refine ⟨?_, h3, h5, h6⟩
  refine Decidable.byContradiction fun hc => ?_
  have := h6 (by unfold serU64 at hc; omega)
  have : 2 ^ 56 ≤ 2 ^ (7 * ((serU64Loop 10 v).length - 1)) :=
    Nat.pow_le_pow_right (by omega) (by unfold serU64 at hc; omega)
  omega

theorem deU64_cut (v : UInt64) (h : v.toNat < 2 ^ 56) (k : Nat) (hk : k < (serU64 v).length) (h1 : 1 ≤ k) :
    deU64 ((serU64 v).take k) = .ok ([], UInt64.ofNat (v.toNat % 128 ^ k)) := by
  have hlen := (serU64_length h).1
  obtain ⟨out', g1, g2⟩ := deLoop_cut 10 k v 0 0 0 hk (by omega) (by decide) (by simp)
  simp only [deU64, serU64, g1, Nat.zero_add]
  rw [if_neg (by omega), if_neg (by omega)]
  have hsh : (UInt64.ofNat (64 - k * 7)).toNat % 64 = 64 - k * 7 := by
    rw [UInt64.toNat_ofNat']; omega
  congr 2
  have hm : v.toNat % 128 ^ k ≤ v.toNat := Nat.mod_le _ _
  rw [← UInt64.toNat_inj, UInt64.toNat_shiftRight, hsh, g2, Nat.shiftRight_eq_div_pow,
    UInt64.toNat_ofNat', Nat.mod_eq_of_lt (b := 2 ^ 64) (by omega)]
  rw [show 7 * (0 + k) = k * 7 by omega, Nat.mul_div_cancel _ (Nat.two_pow_pos (64 - k * 7))]
  have e : (128 : Nat) ^ k = 2 ^ (7 * k) := by rw [Nat.pow_mul]
  rw [e]
  simp

theorem Proper.length {p s : Bytes} (h : Proper p s) : p.length < s.length ∧ p = s.take p.length := by
  obtain ⟨q, hq, rfl⟩ := h
  have := List.length_pos_iff.2 hq
  simp only [List.length_append, List.take_left']
  exact ⟨by omega, trivial⟩

theorem cut_usize {t : Target} {n : Nat} (h : Carried t n) :
    Cut (serUsize n) (deUsize t) fun p m => p ≠ [] ∧ m = n % 128 ^ p.length := by
  intro p q e hq rest m
  have hpr : Proper p (serUsize n) := ⟨q, hq, e⟩
  obtain ⟨hl, hp⟩ := hpr.length
  have hn : (UInt64.ofNat n).toNat = n := by
    rw [UInt64.toNat_ofNat']; exact Nat.mod_eq_of_lt (by have := h.2; omega)
  by_cases hnil : p = []
  · subst hnil
    constructor
    · intro h; exact absurd h ((eats_usize t).nil _ _)
    · intro h; exact absurd rfl h.2.1
  · have h1 : 1 ≤ p.length := List.length_pos_iff.2 hnil
    have hd := deU64_cut (UInt64.ofNat n) (by rw [hn]; exact h.2) p.length hl h1
    rw [show serU64 (UInt64.ofNat n) = serUsize n from rfl, ← hp, hn] at hd
    have hm : n % 128 ^ p.length ≤ n := Nat.mod_le _ _
    have hv : (UInt64.ofNat (n % 128 ^ p.length)).toNat = n % 128 ^ p.length := by
      rw [UInt64.toNat_ofNat']; exact Nat.mod_eq_of_lt (by have := h.2; omega)
    have : deUsize t p = .ok ([], n % 128 ^ p.length) := by
      unfold deUsize
      rw [De.bind_of_ok hd, hv, if_pos (by have := h.1; omega)]
      rfl
    rw [this]
    simp only [Res.ok.injEq, Prod.mk.injEq]
    constructor
    · rintro ⟨rfl, rfl⟩; exact ⟨rfl, hnil, rfl⟩
    · rintro ⟨rfl, _, rfl⟩; exact ⟨rfl, rfl⟩

theorem cut_len {t : Target} {n : Nat} (h : Fits t n) (what : String) :
    Cut (serUsize n) (deLen t what) fun p m => p ≠ [] ∧ m = n % 128 ^ p.length := by
  intro p q e hq rest m
  rw [← cut_usize h.1 p q e hq rest m]
  unfold deLen
  rw [De.bind_apply, Res.bind_eq_ok]
  constructor
  · rintro ⟨⟨r, a⟩, h3, h4⟩
    unfold De.reserve at h4
    rw [De.bind_apply, De.lift_apply] at h4
    split at h4
    · simp only [Res.bind_ok, De.pure_apply, Res.ok.injEq, Prod.mk.injEq] at h4
      obtain ⟨rfl, rfl⟩ := h4
      exact h3
    · cases h4
  · intro h3
    refine ⟨_, h3, ?_⟩
    have hm : m ≤ n := by
      obtain ⟨_, _, rfl⟩ := (cut_usize h.1 p q e hq rest m).1 h3
      exact Nat.mod_le _ _
    unfold De.reserve
    rw [De.bind_apply, De.lift_apply, if_pos (h.2 what m hm)]
    rfl

/-! ## Lists -/

theorem eats_times {d : De α} (h : Eats d) {t : Target} (hg : Good t d fun _ => True) (n : Nat) : Eats (De.times (n + 1) d) := by
  unfold De.times
  exact h.bind (Q := fun _ _ => True) hg fun _ _ => (hg.times n).bind fun _ _ => Good.pure trivial

theorem times_nil {d : De α} (h : Eats d) {t : Target} (hg : Good t d fun _ => True) (m : Nat) (rest : Bytes) (r : List α) :
    De.times m d [] = .ok (rest, r) ↔ rest = [] ∧ m = 0 ∧ r = [] := by
  cases m with
  | zero =>
    simp only [De.times, De.pure_apply, Res.ok.injEq, Prod.mk.injEq, true_and]
    constructor
    · rintro ⟨rfl, rfl⟩; exact ⟨rfl, rfl⟩
    · rintro ⟨rfl, rfl⟩; exact ⟨rfl, rfl⟩
  | succ m =>
    constructor
    · intro e; exact absurd e ((eats_times h hg m).nil _ _)
    · rintro ⟨_, h, _⟩; cases h

/-- Only the last element can be cut. -/
theorem cut_times {ser : α → Bytes} {d : De α} {T : Bytes → α → Prop} (he : Eats d) (hs : Stream d) {t : Target}
    (hg : Good t d fun _ => True) (x : α) (hx : Cut (ser x) d T) : ∀ (l : List α), (∀ a ∈ l, RT (ser a) d a) →
    Cut ((l ++ [x]).flatMap ser) (De.times (l ++ [x]).length d) fun p r =>
      ∃ p₂ x', p = l.flatMap ser ++ p₂ ∧ Proper p₂ (ser x) ∧ T p₂ x' ∧ r = l ++ [x'] := by
  intro l
  induction l with
  | nil =>
    intro _
    simp only [List.nil_append, List.flatMap_cons, List.flatMap_nil, List.append_nil, List.length_cons, List.length_nil]
    intro p q e hq rest r
    unfold De.times
    rw [De.bind_apply, Res.bind_eq_ok]
    constructor
    · rintro ⟨⟨r', a⟩, h3, h4⟩
      unfold De.times at h4
      rw [De.bind_apply] at h4
      simp only [De.pure_apply, Res.bind_ok, Res.ok.injEq, Prod.mk.injEq] at h4
      obtain ⟨rfl, rfl⟩ := h4
      obtain ⟨g1, g2⟩ := (hx p q e hq _ _).1 h3
      exact ⟨g1, p, a, rfl, ⟨q, hq, e⟩, g2, rfl⟩
    · rintro ⟨rfl, p₂, x', rfl, _, ht, rfl⟩
      exact ⟨([], x'), (hx _ q e hq _ _).2 ⟨rfl, ht⟩, rfl⟩
  | cons a l ih =>
    intro hr
    have ih := ih fun b hb => hr b (by simp [hb])
    have hl : (a :: l ++ [x]).length = (l ++ [x]).length + 1 := rfl
    rw [hl, List.cons_append, List.flatMap_cons]
    unfold De.times
    have hpos : (l ++ [x]).length = l.length + 1 := by simp
    refine (Cut.bind_eats hs (hr a (by simp)) (fun b => ?_) (Cut.bind_pure ih)).congr fun p r _ => ?_
    · rw [hpos]
      exact (eats_times he hg _).bind (Q := fun _ _ => True) (hg.times _) fun _ _ => Good.pure trivial
    · constructor
      · rintro ⟨p₂, rfl, _, r', ⟨p₃, x', rfl, h1, h2, rfl⟩, rfl⟩
        exact ⟨p₃, x', by simp, h1, h2, rfl⟩
      · rintro ⟨p₂, x', rfl, ⟨q, hq, e⟩, h2, rfl⟩
        refine ⟨l.flatMap ser ++ p₂, by simp, ⟨q, hq, ?_⟩, l ++ [x'], ⟨p₂, x', rfl, ⟨q, hq, e⟩, h2, rfl⟩, rfl⟩
        simp [e]

/-- A vector can be cut within its last element, or within its length if what is left of it is zero. -/
theorem cut_vec {t : Target} {ser : α → Bytes} {d : De α} {T : α → Bytes → α → Prop} (he : Eats d) (hs : Stream d)
    (hg : Good t d fun _ => True) (l : List α) (hf : Fits t l.length) (hr : ∀ a ∈ l, RT (ser a) d a)
    (hT : ∀ x ∈ l, Cut (ser x) d (T x)) :
    Cut (serVec ser l) (deVec t d) fun p r =>
      (∃ l' x p₂ x', l = l' ++ [x] ∧ p = serUsize l.length ++ (l'.flatMap ser ++ p₂) ∧ Proper p₂ (ser x) ∧ T x p₂ x' ∧ r = l' ++ [x']) ∨
      (Proper p (serUsize l.length) ∧ p ≠ [] ∧ 128 ^ p.length ∣ l.length ∧ r = []) := by
  have c2 : Cut (l.flatMap ser) (De.times l.length d) fun p r =>
      ∃ l' x p₂ x', l = l' ++ [x] ∧ p = l'.flatMap ser ++ p₂ ∧ Proper p₂ (ser x) ∧ T x p₂ x' ∧ r = l' ++ [x'] := by
    rcases List.eq_nil_or_concat l with rfl | ⟨l', x, rfl⟩
    · intro p q e hq
      have := List.append_eq_nil_iff.1 e.symm
      exact absurd this.2 hq
    · rw [List.concat_eq_append] at *
      refine (cut_times he hs hg x (hT x (by simp)) l' fun a ha => hr a (by simp [ha])).congr fun p r _ => ?_
      constructor
      · rintro ⟨p₂, x', h1, h2, h3, h4⟩
        exact ⟨l', x, p₂, x', rfl, h1, h2, h3, h4⟩
      · rintro ⟨l'', y, p₂, x', e, h1, h2, h3, h4⟩
        obtain ⟨rfl, h⟩ := List.append_inj' e rfl
        simp only [List.cons.injEq, and_true] at h
        subst h
        exact ⟨p₂, x', h1, h2, h3, h4⟩
  refine (Cut.bind (U := fun m r => m = 0 ∧ r = []) (deLen_rt hf "vec") (cut_len hf "vec") ?_ c2).congr fun p r _ => ?_
  · intro p m _ _ rest r
    exact times_nil he hg m rest r
  · constructor
    · rintro (⟨p₂, rfl, _, l', x, p₃, x', e, rfl, h⟩ | ⟨m, h1, ⟨h2, rfl⟩, h3, rfl⟩)
      · exact .inl ⟨l', x, p₃, x', e, rfl, h⟩
      · exact .inr ⟨h1, h2, Nat.dvd_of_mod_eq_zero h3, rfl⟩
    · rintro (⟨l', x, p₂, x', e, rfl, ⟨q, hq, eq⟩, h⟩ | ⟨h1, h2, h3, rfl⟩)
      · refine .inl ⟨_, rfl, ⟨q, hq, ?_⟩, l', x, p₂, x', e, rfl, ⟨q, hq, eq⟩, h⟩
        rw [e, List.flatMap_append]
        simp [eq]
      · exact .inr ⟨_, h1, ⟨h2, rfl⟩, Nat.mod_eq_zero_of_dvd h3, rfl⟩

end Idx
