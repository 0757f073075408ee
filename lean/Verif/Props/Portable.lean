import Verif.Props.File

/-! # C106: one file on different machines -/
namespace Idx

/-- What loads by `d` with a value that has `R` takes at least `k` bytes, and `d'` loads the same or, unless `sure`, refuses it. Files have at
most `L` bytes. -/
def Ports (L : Nat) (sure : Prop) (k : Nat) (R : α → Prop) (d d' : De α) : Prop :=
  ∀ (input rest : Bytes) (a : α), input.length ≤ L → d input = .ok (rest, a) →
    rest.length + k ≤ input.length ∧ R a ∧ (d' input = .ok (rest, a) ∨ ¬sure ∧ d' input = .none)

namespace Ports
variable {L : Nat} {sure : Prop} {α β : Type}

theorem mono {k k' : Nat} {R R' : α → Prop} {d d' : De α} (h : Ports L sure k R d d') (hk : k' ≤ k) (hR : ∀ a, R a → R' a) :
    Ports L sure k' R' d d' := fun input rest a hl e => by
  obtain ⟨h1, h2, h3⟩ := h input rest a hl e
  exact ⟨by omega, hR a h2, h3⟩

theorem pure {R : α → Prop} {a : α} (h : R a) : Ports L sure 0 R (Pure.pure a) (Pure.pure a) := fun input rest b _ e => by
  cases e
  exact ⟨Nat.le_refl _, h, .inl rfl⟩

theorem bind {k₁ k₂ : Nat} {R : α → Prop} {Q : β → Prop} {d d' : De α} {f f' : α → De β} (h : Ports L sure k₁ R d d')
    (hf : ∀ a, R a → Ports L sure k₂ Q (f a) (f' a)) : Ports L sure (k₁ + k₂) Q (d >>= f) (d' >>= f') := fun input rest b hl e => by
  rw [De.bind_apply, Res.bind_eq_ok] at e
  obtain ⟨⟨r, a⟩, h1, h2⟩ := e
  obtain ⟨g1, g2, g3⟩ := h input r a hl h1
  obtain ⟨g4, g5, g6⟩ := hf a g2 r rest b (by omega) h2
  refine ⟨by omega, g5, ?_⟩
  rw [De.bind_apply]
  rcases g3 with g3 | ⟨g, g3⟩
  · rw [g3]; exact g6
  · rw [g3]; exact .inr ⟨g, rfl⟩

/-- A decoder that has nothing to do with the machine. -/
theorem refl {d : De α} (h : Eats d) : Ports L sure 1 (fun _ => True) d d := fun input rest a _ e => by
  have := h _ _ _ e
  exact ⟨by omega, trivial, .inl e⟩

theorem lift {R : α → Prop} {r : Res α} (h : ∀ a, r = .ok a → R a) : Ports L sure 0 R (De.lift r) (De.lift r) := fun input rest a _ e => by
  rw [De.lift_apply, Res.bind_eq_ok] at e
  obtain ⟨b, h1, h2⟩ := e
  cases h2
  refine ⟨Nat.le_refl _, h _ h1, .inl ?_⟩
  rw [De.lift_apply, h1]; rfl

theorem times {R : α → Prop} {d d' : De α} (h : Ports L sure 1 R d d') : ∀ n, Ports L sure n (fun l => l.length = n) (De.times n d) (De.times n d')
  | 0 => pure rfl
  | n + 1 => (h.bind fun _ _ => (times h n).bind (k₂ := 0) (Q := fun l : List α => l.length = n + 1) fun l hl =>
      pure (by rw [List.length_cons, hl])).mono (by omega) fun _ h => h

theorem timesFrom {R : α → Prop} {d d' : Nat → De α} (h : ∀ i, Ports L sure 1 R (d i) (d' i)) :
    ∀ n i, Ports L sure n (fun l => l.length = n) (De.timesFrom n i d) (De.timesFrom n i d')
  | 0, _ => pure rfl
  | n + 1, i => ((h i).bind fun _ _ => (timesFrom h n (i + 1)).bind (k₂ := 0) (Q := fun l : List α => l.length = n + 1) fun l hl =>
      pure (by rw [List.length_cons, hl])).mono (by omega) fun _ h => h

end Ports

/-- A machine that can hold a file of `L` bytes: they can be numbered, and room for as many elements is granted. -/
structure Target.Holds (t : Target) (L : Nat) : Prop where
  word : L < 2 ^ t.usizeBits
  room : ∀ what m, m ≤ L → t.reserves what m = true

theorem deUsize_ok {t : Target} {input rest : Bytes} {v : Nat} (h : deUsize t input = .ok (rest, v)) :
    v < 2 ^ t.usizeBits ∧ rest.length < input.length ∧ ∀ t' : Target, deUsize t' input = if v < 2 ^ t'.usizeBits then .ok (rest, v) else .none := by
  have hlt := eats_usize t _ _ _ h
  unfold deUsize at h
  rw [De.bind_apply, Res.bind_eq_ok] at h
  obtain ⟨⟨r, w⟩, h1, h2⟩ := h
  dsimp only at h2
  split at h2
  · rename_i hw
    cases h2
    refine ⟨hw, hlt, fun t' => ?_⟩
    unfold deUsize
    rw [De.bind_apply, h1]
    rw [Res.bind_ok]
    dsimp only
    split <;> rfl
  · cases h2

section
variable {L : Nat} {sure : Prop} {t t' : Target}

/-- A number that what follows shows to be at most `L`. -/
theorem ports_usize_bind (ht : t'.Holds L) {k : Nat} {Q : β → Prop} {f f' : Nat → De β}
    (hf : ∀ v, Ports L sure k Q (f v) (f' v))
    (hv : ∀ v (input rest : Bytes) b, input.length ≤ L → f v input = .ok (rest, b) → v ≤ L) :
    Ports L sure (1 + k) Q (deUsize t >>= f) (deUsize t' >>= f') := fun input rest b hl e => by
  rw [De.bind_apply, Res.bind_eq_ok] at e
  obtain ⟨⟨r, v⟩, h1, h2⟩ := e
  obtain ⟨_, g1, g2⟩ := deUsize_ok h1
  obtain ⟨g4, g5, g6⟩ := hf v r rest b (by omega) h2
  have hvL := hv v r rest b (by omega) h2
  refine ⟨by omega, g5, ?_⟩
  rw [De.bind_apply, g2 t', if_pos (Nat.lt_of_le_of_lt hvL ht.word)]
  exact g6

/-- A length, followed by as many elements. -/
theorem ports_len_bind (ht : t'.Holds L) (what : String) {Q : β → Prop} {f f' : Nat → De β} (hf : ∀ v, Ports L sure v Q (f v) (f' v)) :
    Ports L sure 1 Q (deLen t what >>= f) (deLen t' what >>= f') := by
  have e : ∀ (t : Target) (f : Nat → De β), (deLen t what >>= f) = (deUsize t >>= fun v => De.reserve t what v >>= fun _ => f v) := by
    intro t f
    funext input
    unfold deLen
    rw [De.bind_apply, De.bind_apply, De.bind_apply]
    cases deUsize t input with
    | none => rfl
    | panic w => rfl
    | ok x =>
      obtain ⟨r, v⟩ := x
      rw [Res.bind_ok, Res.bind_ok, De.bind_apply, De.bind_apply]
      cases De.reserve t what v r <;> rfl
  have hr : ∀ (t : Target) v input, De.reserve t what v input = if t.reserves what v then .ok (input, ()) else .panic .capacity := by
    intro t v input
    unfold De.reserve
    rw [De.lift_apply]
    split <;> rfl
  rw [e, e]
  refine (ports_usize_bind (k := 0) ht (fun v input rest b hl h => ?_) fun v input rest b hl h => ?_).mono (Nat.le_refl _) fun _ h => h
  · rw [De.bind_apply, hr] at h
    split at h
    · obtain ⟨h1, h2, h3⟩ := hf v input rest b hl h
      refine ⟨by omega, h2, ?_⟩
      rw [De.bind_apply, hr, ht.room what v (by omega)]
      exact h3
    · cases h
  · rw [De.bind_apply, hr] at h
    split at h
    · have := (hf v input rest b hl h).1
      omega
    · cases h

theorem ports_vec (ht : t'.Holds L) {R : α → Prop} {d d' : De α} (h : Ports L sure 1 R d d') :
    Ports L sure 1 (fun _ => True) (deVec t d) (deVec t' d') :=
  ports_len_bind ht "vec" fun v => (h.times v).mono (Nat.le_refl _) fun _ _ => trivial

theorem ports_str (ht : t'.Holds L) : Ports L sure 1 (fun _ => True) (deStr t) (deStr t') := by
  refine ports_usize_bind (k := 0) ht (fun v input rest b hl h => ?_) fun v input rest b hl h => ?_
  · split at h
    · split at h
      · rename_i hs
        cases h
        refine ⟨by rw [List.length_drop]; omega, trivial, .inl ?_⟩
        rw [if_pos (by assumption)]
      · cases h
    · cases h
  · split at h
    · omega
    · cases h

theorem ports_map {K V : Type} [DecidableEq K] (ht : t'.Holds L) {R : K → Prop} {Q : V → Prop} {dk dk' : De K} {dv dv' : De V}
    (hk : Ports L sure 1 R dk dk') (hv : Ports L sure 0 Q dv dv') :
    Ports L sure 1 (fun _ => True) (deMap t dk dv) (deMap t' dk' dv') := by
  refine ports_len_bind ht "map" fun v => Ports.bind (k₂ := 0) (Ports.times (R := fun _ => True) ?_ v) fun l _ => .pure trivial
  exact hk.bind fun k _ => hv.bind (k₂ := 0) fun v _ => .pure trivial

theorem ports_array (ht : t'.Holds L) {R : α → Prop} {d d' : De α} (n : Nat) (h : Ports L sure 1 R d d') :
    Ports L sure 1 (fun _ => True) (deArray t n d) (deArray t' n d') := by
  refine ports_usize_bind (k := 0) ht (fun v input rest b hl e => ?_) fun v input rest b hl e => ?_
  · split at e
    · rename_i hvn
      obtain ⟨h1, _, h3⟩ := h.times n input rest b hl e
      rw [if_pos hvn]
      exact ⟨by omega, trivial, h3⟩
    · cases e
  · split at e
    · have := (h.times n input rest b hl e).1
      omega
    · cases e

/-- Numbers at most `L`, written as differences, and added up with overflow checks. -/
theorem ports_deltas (hc : t.overflowChecks = true) (ht : t'.Holds L) : ∀ (n : Nat) (prev : Option Nat) (input rest : Bytes) (ids : List Nat),
    deDeltas t n prev input = .ok (rest, ids) → (∀ id ∈ ids, id ≤ L) →
    deDeltas t' n prev input = .ok (rest, ids) ∧ rest.length + n ≤ input.length ∧ ids.length = n
  | 0, _, input, rest, ids, h, _ => by cases h; exact ⟨rfl, Nat.le_refl _, rfl⟩
  | n + 1, prev, input, rest, ids, h, hL => by
    unfold deDeltas at h
    rw [De.bind_apply, Res.bind_eq_ok] at h
    obtain ⟨⟨r, parsed⟩, h1, h⟩ := h
    rw [De.bind_apply, Res.bind_eq_ok] at h
    obtain ⟨⟨r', item⟩, h2, h⟩ := h
    rw [De.bind_apply, Res.bind_eq_ok] at h
    obtain ⟨⟨r'', ids'⟩, h3, h⟩ := h
    cases h
    dsimp only at h2 h3
    obtain ⟨_, g1, g2⟩ := deUsize_ok h1
    have hi : item ≤ L := hL item List.mem_cons_self
    have hlt : item < 2 ^ t'.usizeBits := Nat.lt_of_le_of_lt hi ht.word
    have key : r' = r ∧ parsed ≤ item ∧ (match (generalizing := false) prev with | some p => De.lift (addUsize t' parsed p) | none => Pure.pure parsed : De Nat) r = .ok (r, item) := by
      cases prev with
      | none => cases h2; exact ⟨rfl, Nat.le_refl _, rfl⟩
      | some p =>
        dsimp only at h2 ⊢
        rw [De.lift_apply, Res.bind_eq_ok] at h2
        obtain ⟨s, h4, h5⟩ := h2
        cases h5
        unfold addUsize at h4
        rw [hc, if_pos rfl] at h4
        split at h4
        · cases h4
          refine ⟨rfl, Nat.le_add_right _ _, ?_⟩
          rw [De.lift_apply, addUsize, if_pos hlt]; rfl
        · cases h4
    obtain ⟨rfl, hle, key⟩ := key
    obtain ⟨g3, g4, g5⟩ := ports_deltas hc ht n (some item) _ _ _ h3 fun id hid => hL id (List.mem_cons_of_mem _ hid)
    refine ⟨?_, by dsimp only; omega, by rw [List.length_cons, g5]⟩
    unfold deDeltas
    rw [De.bind_apply, g2 t', if_pos (Nat.lt_of_le_of_lt hle hlt), Res.bind_ok, De.bind_apply]
    refine (congrArg (fun x => x >>= fun p : Bytes × Nat => (deDeltas t' n (some p.snd) >>= fun rest => Pure.pure (p.snd :: rest)) p.fst) key).trans ?_
    dsimp only
    rw [Res.bind_ok, De.bind_apply]
    dsimp only
    rw [g3]
    rfl

theorem lookupAll_lt {existing : List Product} : ∀ {ids : List Nat} {l : List Product}, lookupAll existing ids = some l → ∀ id ∈ ids, id < existing.length
  | [], _, _, _, h => by cases h
  | i :: ids, l, h, id, hid => by
    unfold lookupAll at h
    split at h
    · cases h
    · rename_i p hp
      obtain ⟨l', h1, rfl⟩ := Option.map_eq_some_iff.1 h
      rcases List.mem_cons.1 hid with rfl | hid
      · exact (List.getElem?_eq_some_iff.1 hp).1
      · exact lookupAll_lt h1 id hid

theorem ports_productSeq (hc : t.overflowChecks = true) (ht : t'.Holds L) {existing : List Product} (he : existing.length ≤ L) :
    Ports L sure 1 (fun _ => True) (deProductSeq t existing) (deProductSeq t' existing) := by
  have e : ∀ t : Target, deProductSeq t existing = (deLen t "sequence" >>= fun v => deDeltas t v none >>= fun ids =>
      De.lift (Res.ofOption (lookupAll existing ids)) >>= fun products => Pure.pure (products, ids)) := by
    intro t
    funext input
    unfold deProductSeq deSeq
    rw [De.bind_apply, De.bind_apply, De.bind_apply]
    cases deLen t "sequence" input <;> rfl
  rw [e, e]
  refine ports_len_bind ht "sequence" fun v input rest b hl h => ?_
  rw [De.bind_apply, Res.bind_eq_ok] at h
  obtain ⟨⟨r, ids⟩, h1, h2⟩ := h
  have h3 := h2
  rw [De.bind_apply, Res.bind_eq_ok] at h2
  obtain ⟨⟨r', products⟩, h2, h4⟩ := h2
  rw [De.lift_apply, Res.bind_eq_ok] at h2
  obtain ⟨products', h2, h5⟩ := h2
  cases h5
  cases h4
  cases hlk : lookupAll existing ids with
  | none => rw [hlk] at h2; cases h2
  | some l =>
    obtain ⟨g1, g2, _⟩ := ports_deltas hc ht v none input r ids h1 fun id hid => by
      have := lookupAll_lt hlk id hid
      omega
    refine ⟨g2, trivial, .inl ?_⟩
    rw [De.bind_apply, g1]
    exact h3

theorem ports_vendors (ht : t'.Holds L) : Ports L sure 1 (fun m => m.byId.length ≤ L) (deVendors t) (deVendors t') := by
  unfold deVendors
  refine ports_len_bind ht "vendors" fun v input rest m hl h => ?_
  have hs : Ports L sure v (fun l => l.length = v) (De.timesFrom v 0 (fun id => (do let name ← deStr t; pure ({ name, id } : Vendor) : De Vendor)))
      (De.timesFrom v 0 (fun id => (do let name ← deStr t'; pure ({ name, id } : Vendor) : De Vendor))) :=
    Ports.timesFrom (R := fun _ => True) (fun i => (ports_str ht).bind (k₂ := 0) fun _ _ => .pure trivial) v 0
  have := hs.bind (k₂ := 0) (Q := fun m : VendorManager => m.byId.length = v)
    (f := fun vs => pure { tags := AMap.collect (vs.map fun v => (v.name, v)), byId := vs })
    (f' := fun vs => pure { tags := AMap.collect (vs.map fun v => (v.name, v)), byId := vs }) fun l hl => .pure hl
  obtain ⟨h1, h2, h3⟩ := this input rest m hl h
  exact ⟨by omega, by omega, h3⟩

theorem ports_product (ht : t'.Holds L) (sid : Nat) {vendors : VendorManager} (hv : vendors.byId.length ≤ L) :
    Ports L sure 1 (fun _ => True) (deProduct t sid vendors) (deProduct t' sid vendors) := by
  unfold deProduct
  refine ((ports_str ht).bind (k₂ := 0) fun _ _ => Ports.mono ((ports_str ht).bind (k₂ := 0) fun _ _ => Ports.mono ((ports_str ht).bind (k₂ := 0)
    fun _ _ => Ports.mono (ports_usize_bind (k := 0) ht (fun v => ?_) fun v input rest b hl h => ?_) (Nat.zero_le _) fun _ h => h)
    (Nat.zero_le _) fun _ h => h) (Nat.zero_le _) fun _ h => h)
  · exact (Ports.lift (R := fun _ => True) fun _ _ => trivial).bind (k₂ := 0) fun _ _ => .pure trivial
  · rw [De.bind_apply, Res.bind_eq_ok] at h
    obtain ⟨⟨r, vendor⟩, h1, h2⟩ := h
    rw [De.lift_apply, Res.bind_eq_ok] at h1
    obtain ⟨x, h1, _⟩ := h1
    cases hx : vendors.byId[v]? with
    | none => rw [hx] at h1; cases h1
    | some y =>
      have := (List.getElem?_eq_some_iff.1 hx).1
      omega

theorem ports_feature (ht : t'.Holds L) : Ports L sure 0 (fun _ => True) (deFeature t) (deFeature t') := by
  unfold deFeature
  have h0 : Ports L sure 0 (fun _ => True) deU8 deU8 := fun input rest a _ e => by
    unfold deU8 at e
    split at e
    · cases e
    · cases e; exact ⟨by simp only [List.length_cons]; omega, trivial, .inl rfl⟩
  refine Ports.bind (k₂ := 0) h0 fun id _ => ?_
  split
  · exact Ports.mono ((ports_vec ht (ports_str ht)).bind (k₂ := 0) fun _ _ => .pure trivial) (Nat.zero_le _) fun _ h => h
  · split
    · exact Ports.mono ((ports_vec ht (.refl eats_f32)).bind (k₂ := 0) fun _ _ => .pure trivial) (Nat.zero_le _) fun _ h => h
    · split
      · exact Ports.mono ((ports_vec ht (.refl eats_u32)).bind (k₂ := 0) fun _ _ => .pure trivial) (Nat.zero_le _) fun _ h => h
      · intro input rest a _ e; cases e

theorem ports_container (ht : t'.Holds L) : Ports L sure 0 (fun c => c.products.length ≤ L) (deContainer t) (deContainer t') := by
  unfold deContainer
  refine Ports.mono ((ports_vendors ht).bind (k₂ := 0) fun vendors hv => Ports.mono (ports_usize_bind (k := 0) ht (fun v input rest c hl h => ?_) fun v input rest c hl h => ?_)
    (Nat.zero_le _) fun _ h => h) (Nat.zero_le _) fun _ h => h
  all_goals
    have hp := (Ports.timesFrom (L := L) (sure := sure) (fun i => ports_product (t := t) ht i hv) v 0).bind (k₂ := 0) (Q := fun c : Container => c.products.length = v)
      (f := fun products => deFeatureSet t >>= fun extra => pure { products, vendors, extra })
      (f' := fun products => deFeatureSet t' >>= fun extra => pure { products, vendors, extra })
      fun products hl => Ports.mono ((ports_map ht (ports_str ht) (ports_feature ht)).bind (k₂ := 0) fun _ _ => .pure hl) (Nat.zero_le _) fun _ h => h
    obtain ⟨h1, h2, h3⟩ := hp input rest c hl h
  · exact ⟨by omega, by omega, h3⟩
  · omega

theorem ports_node (ht : t'.Holds L) : ∀ fuel, Ports L sure 1 (fun _ => True) (deNode t fuel) (deNode t' fuel)
  | 0 => fun input rest a _ e => by cases e
  | fuel + 1 => by
    unfold deNode
    exact (Ports.refl eats_char).bind (k₂ := 0) fun _ _ => Ports.mono ((Ports.refl eats_f32).bind (k₂ := 0) fun _ _ =>
      Ports.mono ((ports_vec ht (ports_node ht fuel)).bind (k₂ := 0) fun _ _ => .pure trivial) (Nat.zero_le _) fun _ h => h) (Nat.zero_le _) fun _ h => h

theorem ports_nodeTop (ht : t'.Holds L) : Ports L sure 1 (fun _ => True) (deNodeTop t) (deNodeTop t') := fun input rest a hl e =>
  ports_node ht (input.length + 1) input rest a hl e

theorem ports_posting (hc : t.overflowChecks = true) (ht : t'.Holds L) (n : Nat) {c : Container} (hcl : c.products.length ≤ L) :
    Ports L sure 1 (fun _ => True) (dePosting t n c) (dePosting t' n c) := by
  unfold dePosting
  exact (ports_array ht n (.refl eats_char)).bind (k₂ := 0) fun _ _ => Ports.mono ((ports_productSeq hc ht hcl).bind (k₂ := 0)
    fun _ _ => .pure trivial) (Nat.zero_le _) fun _ h => h

theorem ports_gram (hc : t.overflowChecks = true) (ht : t'.Holds L) (n : Nat) :
    Ports L sure 0 (fun ix => ix.container.products.length ≤ L) (deGramIndex t n) (deGramIndex t' n) := by
  unfold deGramIndex
  refine (ports_container ht).bind (k₂ := 0) fun c hcl => Ports.mono ((ports_map ht (.refl eats_char) ((ports_nodeTop ht).mono (Nat.zero_le _) fun _ h => h)).bind (k₂ := 0)
    fun roots _ => Ports.mono (ports_len_bind ht "data" fun v => ?_) (Nat.zero_le _) fun _ h => h) (Nat.zero_le _) fun _ h => h
  exact ((ports_posting hc ht n hcl).times v).bind (k₂ := 0) fun entries _ => .pure hcl

theorem ports_option (hc : t.overflowChecks = true) (ht : t'.Holds L) {existing : List Product} (he : existing.length ≤ L) (sid : Nat) :
    Ports L sure 1 (fun _ => True) (deCatOption t existing sid) (deCatOption t' existing sid) := by
  unfold deCatOption
  exact (ports_str ht).bind (k₂ := 0) fun _ _ => Ports.mono ((ports_productSeq hc ht he).bind (k₂ := 0)
    fun _ _ => .pure trivial) (Nat.zero_le _) fun _ h => h

theorem ports_category (hc : t.overflowChecks = true) (ht : t'.Holds L) {existing : List Product} (he : existing.length ≤ L) (next : Nat) :
    Ports L sure 1 (fun _ => True) (deCategory t existing next) (deCategory t' existing next) := by
  unfold deCategory
  have h0 : Ports L sure 1 (fun _ => True) deBool deBool := fun input rest a _ e => by
    unfold deBool at e
    split at e
    · cases e
    · cases e; exact ⟨by simp only [List.length_cons]; omega, trivial, .inl rfl⟩
  exact h0.bind (k₂ := 0) fun _ _ => Ports.mono ((ports_str ht).bind (k₂ := 0) fun _ _ => Ports.mono (ports_len_bind ht "options" fun v =>
    (Ports.timesFrom (fun i => ports_option hc ht he i) v next).bind (k₂ := 0) fun _ _ => .pure trivial) (Nat.zero_le _) fun _ h => h)
    (Nat.zero_le _) fun _ h => h

theorem ports_categoriesLoop (hc : t.overflowChecks = true) (ht : t'.Holds L) {existing : List Product} (he : existing.length ≤ L) :
    ∀ n next, Ports L sure n (fun _ => True) (deCategoriesLoop t existing n next) (deCategoriesLoop t' existing n next)
  | 0, _ => .pure trivial
  | n + 1, next => by
    unfold deCategoriesLoop
    exact Ports.mono ((ports_category hc ht he next).bind fun cat _ => (ports_categoriesLoop hc ht he n _).bind (k₂ := 0) fun _ _ => .pure trivial)
      (by omega) fun _ h => h

theorem ports_tags (hc : t.overflowChecks = true) (ht : t'.Holds L) {existing : List Product} (he : existing.length ≤ L) :
    Ports L sure 0 (fun _ => True) (deTags t existing) (deTags t' existing) := by
  unfold deTags
  refine Ports.mono (ports_len_bind ht "tags" fun v => (Ports.timesFrom (R := fun _ => True) (fun i => ?_) v 0).mono (Nat.le_refl _) fun _ _ => trivial)
    (Nat.zero_le _) fun _ h => h
  exact (ports_str ht).bind (k₂ := 0) fun _ _ => Ports.mono ((ports_productSeq hc ht he).bind (k₂ := 0)
    fun _ _ => .pure trivial) (Nat.zero_le _) fun _ h => h

/-- The ranks of an order are the only numbers that nothing limits. -/
theorem ports_rank (hs : sure → t.usizeBits ≤ t'.usizeBits) : Ports L sure 1 (fun _ => True) (deUsize t) (deUsize t') := fun input rest v _ h => by
  obtain ⟨h1, h2, h3⟩ := deUsize_ok h
  refine ⟨by omega, trivial, ?_⟩
  rw [h3 t']
  split
  · exact .inl rfl
  · rename_i hv
    exact .inr ⟨fun s => hv (Nat.lt_of_lt_of_le h1 (Nat.pow_le_pow_right (by decide) (hs s))), rfl⟩

theorem ports_classic (hc : t.overflowChecks = true) (ht : t'.Holds L) (hs : sure → t.usizeBits ≤ t'.usizeBits) {c : Container}
    (he : c.products.length ≤ L) : Ports L sure 0 (fun _ => True) (deClassic t c) (deClassic t' c) := by
  unfold deClassic deCategories deOrders
  refine Ports.mono (k := 1 + 0) ?_ (by omega) fun _ h => h
  refine Ports.bind (ports_len_bind ht "categories" fun v => ports_categoriesLoop hc ht he v 0) fun _ _ => (ports_tags hc ht he).bind (k₂ := 0) fun _ _ => ?_
  exact Ports.mono ((ports_map ht (ports_str ht) ((ports_vec ht (ports_rank hs)).mono (Nat.zero_le _) fun _ h => h)).bind (k₂ := 0)
    fun _ _ => .pure trivial) (Nat.zero_le _) fun _ h => h

theorem ports_both (hc : t.overflowChecks = true) (ht : t'.Holds L) (hs : sure → t.usizeBits ≤ t'.usizeBits) (n : Nat) :
    Ports L sure 0 (fun _ => True) (deBoth t n) (deBoth t' n) :=
  (ports_gram hc ht n).bind (k₂ := 0) fun _ hix => (ports_classic hc ht hs hix).bind (k₂ := 0) fun _ _ => .pure trivial
end

/-- What a build with overflow checks loads is loaded as the same, or refused, by every build on every machine that can hold the file. It is
refused only on machines with smaller words. -/
theorem C106_moves {t t' : Target} (hc : t.overflowChecks = true) {n : Nat} {bytes : Bytes} (ht : t'.Holds bytes.length)
    {r : GramIndex Char × Classic} (h : deserializeAll t n bytes = .ok r) :
    deserializeAll t' n bytes = .ok r ∨ t'.usizeBits < t.usizeBits ∧ deserializeAll t' n bytes = .none := by
  rw [deserializeAll_eq, Res.bind_eq_ok] at h
  obtain ⟨⟨rest, r'⟩, h1, h2⟩ := h
  cases h2
  obtain ⟨_, _, h3⟩ := ports_both (L := bytes.length) (sure := t.usizeBits ≤ t'.usizeBits) hc ht id n _ _ _ (Nat.le_refl _) h1
  rw [deserializeAll_eq]
  rcases h3 with h3 | ⟨h3, h4⟩
  · rw [h3]; exact .inl rfl
  · rw [h4]; exact .inr ⟨by omega, rfl⟩

/-- If one build has overflow checks, what both load is the same. -/
theorem C106_same {t t' : Target} (hc : t.overflowChecks = true) {n : Nat} {bytes : Bytes} (ht' : t'.Holds bytes.length) {r r' : GramIndex Char × Classic}
    (h : deserializeAll t n bytes = .ok r) (h' : deserializeAll t' n bytes = .ok r') : r = r' := by
  rcases C106_moves hc ht' h with e | ⟨_, e⟩
  · rw [h'] at e; cases e; rfl
  · rw [h'] at e; cases e

/-! ## Builds without overflow checks -/

/-- `d'` does the same as `d` unless `d` overflows. -/
def SameUnlessOverflow (d d' : De α) : Prop := ∀ input, d input = .panic .overflow ∨ d' input = d input

namespace SameUnlessOverflow

theorem refl (d : De α) : SameUnlessOverflow d d := fun _ => .inr rfl

theorem bind {d d' : De α} {f f' : α → De β} (h : SameUnlessOverflow d d') (hf : ∀ a, SameUnlessOverflow (f a) (f' a)) : SameUnlessOverflow (d >>= f) (d' >>= f') := fun input => by
  rw [De.bind_apply, De.bind_apply]
  rcases h input with e | e
  · rw [e]; exact .inl rfl
  · rw [e]
    cases d input with
    | none => exact .inr rfl
    | panic w => exact .inr rfl
    | ok x => exact hf x.2 x.1

theorem times {d d' : De α} (h : SameUnlessOverflow d d') : ∀ n, SameUnlessOverflow (De.times n d) (De.times n d')
  | 0 => refl _
  | n + 1 => h.bind fun _ => (times h n).bind fun _ => refl _

theorem timesFrom {d d' : Nat → De α} (h : ∀ i, SameUnlessOverflow (d i) (d' i)) : ∀ n i, SameUnlessOverflow (De.timesFrom n i d) (De.timesFrom n i d')
  | 0, _ => refl _
  | n + 1, i => (h i).bind fun _ => (timesFrom h n (i + 1)).bind fun _ => refl _

end SameUnlessOverflow

/-- The same machine, running a build without overflow checks. -/
def Target.unchecked (t : Target) : Target := { t with overflowChecks := false }

section
variable {t : Target}

theorem quiet_add (hc : t.overflowChecks = true) (a b : Nat) : SameUnlessOverflow (De.lift (addUsize t a b)) (De.lift (addUsize t.unchecked a b)) := fun input => by
  rw [De.lift_apply, De.lift_apply]
  unfold addUsize
  rw [hc, if_pos rfl]
  change _ ∨ ((if a + b < 2 ^ t.usizeBits then _ else _) >>= _) = _
  split
  · exact .inr rfl
  · exact .inl rfl

theorem quiet_deltas (hc : t.overflowChecks = true) : ∀ n prev, SameUnlessOverflow (deDeltas t n prev) (deDeltas t.unchecked n prev)
  | 0, _ => .refl _
  | n + 1, prev => by
    unfold deDeltas
    refine (SameUnlessOverflow.refl (deUsize t)).bind fun parsed => SameUnlessOverflow.bind ?_ fun item => (quiet_deltas hc n (some item)).bind fun _ => .refl _
    cases prev with
    | none => exact .refl _
    | some p => exact quiet_add hc parsed p

theorem quiet_productSeq (hc : t.overflowChecks = true) (existing : List Product) :
    SameUnlessOverflow (deProductSeq t existing) (deProductSeq t.unchecked existing) :=
  SameUnlessOverflow.bind ((SameUnlessOverflow.refl (deLen t "sequence")).bind fun v => quiet_deltas hc v none) fun _ => .refl _

theorem quiet_categoriesLoop (hc : t.overflowChecks = true) (existing : List Product) :
    ∀ n next, SameUnlessOverflow (deCategoriesLoop t existing n next) (deCategoriesLoop t.unchecked existing n next)
  | 0, _ => .refl _
  | n + 1, next => by
    unfold deCategoriesLoop
    refine SameUnlessOverflow.bind ?_ fun cat => (quiet_categoriesLoop hc existing n _).bind fun _ => .refl _
    exact (SameUnlessOverflow.refl deBool).bind fun _ => (SameUnlessOverflow.refl (deStr t)).bind fun _ => (SameUnlessOverflow.refl (deLen t "options")).bind fun v =>
      (SameUnlessOverflow.timesFrom (fun i => (SameUnlessOverflow.refl (deStr t)).bind fun _ => (quiet_productSeq hc existing).bind fun _ => .refl _) v next).bind fun _ => .refl _

theorem deNode_unchecked : ∀ fuel, deNode t.unchecked fuel = deNode t fuel
  | 0 => rfl
  | fuel + 1 => by
    unfold deNode
    rw [deNode_unchecked fuel]
    rfl

theorem quiet_gram (hc : t.overflowChecks = true) (n : Nat) : SameUnlessOverflow (deGramIndex t n) (deGramIndex t.unchecked n) := by
  unfold deGramIndex
  have hn : deNodeTop t.unchecked = deNodeTop t := funext fun input => by unfold deNodeTop; rw [deNode_unchecked]
  rw [hn]
  refine (SameUnlessOverflow.refl (deContainer t)).bind fun c => (SameUnlessOverflow.refl (deMap t deChar (deNodeTop t))).bind fun roots => (SameUnlessOverflow.refl (deLen t "data")).bind fun v => ?_
  refine (SameUnlessOverflow.times ?_ v).bind fun _ => .refl _
  exact (SameUnlessOverflow.refl (deArray t n deChar)).bind fun _ => (quiet_productSeq hc c.products).bind fun _ => .refl _

theorem quiet_classic (hc : t.overflowChecks = true) (c : Container) : SameUnlessOverflow (deClassic t c) (deClassic t.unchecked c) := by
  unfold deClassic
  refine SameUnlessOverflow.bind ((SameUnlessOverflow.refl (deLen t "categories")).bind fun v => quiet_categoriesLoop hc c.products v 0) fun _ => SameUnlessOverflow.bind ?_ fun _ => .refl _
  exact (SameUnlessOverflow.refl (deLen t "tags")).bind fun v => SameUnlessOverflow.timesFrom (fun i => (SameUnlessOverflow.refl (deStr t)).bind fun _ => (quiet_productSeq hc c.products).bind fun _ => .refl _) v 0
end

/-- A build without overflow checks does what the one with them does, whatever the file, unless that one stops at an overflow. -/
theorem C106_checks {t : Target} (hc : t.overflowChecks = true) (n : Nat) (bytes : Bytes)
    (h : deserializeAll t n bytes ≠ .panic .overflow) : deserializeAll t.unchecked n bytes = deserializeAll t n bytes := by
  rw [deserializeAll_eq, deserializeAll_eq]
  rw [deserializeAll_eq] at h
  have := SameUnlessOverflow.bind (quiet_gram hc n) fun ix => (quiet_classic hc ix.container).bind fun cl => SameUnlessOverflow.refl (Pure.pure (ix, cl))
  rcases this bytes with e | e
  · refine absurd ?_ h
    change (deBoth t n bytes >>= _) = _
    rw [show deBoth t n bytes = .panic .overflow from e]
    rfl
  · rw [show deBoth t.unchecked n bytes = deBoth t n bytes from e]

/-- A file of 25 bytes with two products and a tag on product 1 and another one 2^32 - 1 further on. -/
def wrapFile : Bytes := [1, 0, 2, 0, 0, 0, 0, 0, 0, 0, 0, 0, 0, 0, 0, 1, 0, 2, 1, 255, 255, 255, 255, 15, 0]

/-- A file of 15 bytes with one order, whose only rank is 2^32. -/
def rankFile : Bytes := [0, 0, 0, 0, 0, 0, 0, 1, 0, 1, 128, 128, 128, 128, 16]

/-- Without the conditions neither holds: the page (wasm32, no overflow checks) loads a file that the page built with checks stops at and that is
refused natively; and a file that loads natively is refused by the page. -/
theorem C106_false (n : Nat) (checks : Bool) :
    (∃ ix cl, deserializeAll .wasm32 n wrapFile = .ok (ix, cl) ∧ cl.tags.map (·.ids) = [[1, 0]]) ∧
    deserializeAll ⟨32, true, fun _ _ => true⟩ n wrapFile = .panic .overflow ∧
    deserializeAll ⟨64, checks, fun _ _ => true⟩ n wrapFile = .none ∧
    (∃ ix cl, deserializeAll ⟨64, checks, fun _ _ => true⟩ n rankFile = .ok (ix, cl) ∧ cl.order.map (·.2) = [[2 ^ 32]]) ∧
    deserializeAll ⟨32, checks, fun _ _ => true⟩ n rankFile = .none :=
  ⟨⟨_, _, rfl, rfl⟩, rfl, rfl, ⟨_, _, rfl, rfl⟩, rfl⟩

example : Target.wasm32.Holds 1000 := ⟨by decide, fun _ _ _ => rfl⟩
example : Target.debug64.unchecked = ⟨64, false, fun _ _ => true⟩ := rfl

end Idx
