import Verif.Lemmas.ArenaLoad
import Verif.Props.Size

/-! What a load takes of the arenas, whatever its outcome. -/

namespace Idx

/-- Six bytes pay for a node: what was paid in advance is `pre`, what is still paid for afterwards is `post`. At most `b`
boxes are added. -/
def Frugal (pre post b : Nat) (l : Ld α) : Prop := ∀ (m : Memory) (input : Bytes),
  m.boxes.length ≤ (l m input).1.boxes.length ∧ (l m input).1.boxes.length ≤ m.boxes.length + b ∧
  match (l m input).2 with
  | .ok (rest, _) => 6 * (l m input).1.nodes.length + rest.length + post ≤ 6 * m.nodes.length + input.length + pre
  | _ => 6 * (l m input).1.nodes.length ≤ 6 * m.nodes.length + input.length + pre

namespace Frugal

theorem pure (p : Nat) (a : α) : Frugal p p 0 (Pure.pure a : Ld α) := by
  intro m input
  refine ⟨Nat.le_refl _, Nat.le_refl _, ?_⟩
  show 6 * m.nodes.length + input.length + p ≤ _
  omega

theorem of {d : De α} {k : Nat} (h : Costs d fun _ => k) (p : Nat) : Frugal p (p + k) 0 (Ld.of d) := by
  intro m input
  refine ⟨Nat.le_refl _, Nat.le_refl _, ?_⟩
  have h := h input
  show match d input with
    | .ok (rest, _) => 6 * m.nodes.length + rest.length + (p + k) ≤ 6 * m.nodes.length + input.length + p
    | _ => 6 * m.nodes.length ≤ 6 * m.nodes.length + input.length + p
  cases hd : d input with
  | ok r =>
    have := h _ _ hd
    simp only at this ⊢
    omega
  | none => simp only; omega
  | panic w => simp only; omega

theorem good {t : Target} {d : De α} {P : α → Prop} (h : Good t d P) (p : Nat) : Frugal p p 0 (Ld.of d) := by
  refine of (k := 0) (fun input rest a e => ?_) p
  have := (h.ok _ _ _ e).1.length_le
  simp only
  omega

theorem bind {l : Ld α} {f : α → Ld β} {p q r b c : Nat} (h : Frugal p q b l) (k : ∀ a, Frugal q r c (f a)) :
    Frugal p r (b + c) (l >>= f) := by
  intro m input
  have h1 := h m input
  rw [Ld.bind_apply]
  revert h1
  cases l m input with
  | mk m' x =>
    cases x with
    | ok x =>
      obtain ⟨rest, a⟩ := x
      rintro ⟨h1, h2, h3⟩
      obtain ⟨h4, h5, h6⟩ := k a m' rest
      simp only at h1 h2 h3 ⊢
      refine ⟨by omega, by omega, ?_⟩
      revert h6
      cases (f a m' rest).2 with
      | ok y => simp only; intro h6; omega
      | none => simp only; intro h6; omega
      | panic w => simp only; intro h6; omega
    | none =>
      rintro ⟨h1, h2, h3⟩
      simp only at h1 h2 h3 ⊢
      exact ⟨by omega, by omega, h3⟩
    | panic w =>
      rintro ⟨h1, h2, h3⟩
      simp only at h1 h2 h3 ⊢
      exact ⟨by omega, by omega, h3⟩

theorem frame {l : Ld α} {p q b : Nat} (h : Frugal p q b l) (k : Nat) : Frugal (p + k) (q + k) b l := by
  intro m input
  obtain ⟨h1, h2, h3⟩ := h m input
  refine ⟨h1, h2, ?_⟩
  revert h3
  cases (l m input).2 with
  | ok y => simp only; intro h6; omega
  | none => simp only; intro h6; omega
  | panic w => simp only; intro h6; omega

theorem drop {l : Ld α} {p q q' b : Nat} (h : Frugal p q b l) (hq : q' ≤ q) : Frugal p q' b l := by
  intro m input
  obtain ⟨h1, h2, h3⟩ := h m input
  refine ⟨h1, h2, ?_⟩
  revert h3
  cases (l m input).2 with
  | ok y => simp only; intro h6; omega
  | none => exact id
  | panic w => exact id

theorem times {l : Ld α} {p : Nat} (h : Frugal p p 0 l) : ∀ n, Frugal p p 0 (Ld.times n l)
  | 0 => pure p []
  | n + 1 => (h.bind fun _ => (times h n).bind fun _ => pure p _ : Frugal p p 0 _)

end Frugal

theorem frugal_same {l : Ld α} (h : ∀ m input, ∃ x, l m input = (m, x) ∧ ∀ rest a, x = .ok (rest, a) → rest = input) (p : Nat) :
    Frugal p p 0 l := by
  intro m input
  obtain ⟨x, h1, h2⟩ := h m input
  rw [h1]
  refine ⟨Nat.le_refl _, Nat.le_refl _, ?_⟩
  cases x with
  | ok y => obtain ⟨rest, a⟩ := y; simp only; rw [h2 _ _ rfl]; omega
  | none => simp only; omega
  | panic w => simp only; omega

theorem frugal_cellOf (a p : Nat) : Frugal p p 0 (cellOf a) := by
  refine frugal_same (fun m input => ?_) p
  unfold cellOf
  cases m.nodes[a]? with
  | none => exact ⟨_, rfl, fun _ _ h => nomatch h⟩
  | some c =>
    refine ⟨_, rfl, fun _ _ h => ?_⟩
    simp only [Res.ok.injEq, Prod.mk.injEq] at h
    exact h.1.symm

theorem frugal_containerOf (a p : Nat) : Frugal p p 0 (containerOf a) := by
  refine frugal_same (fun m input => ?_) p
  unfold containerOf
  cases m.boxes[a]? with
  | none => exact ⟨_, rfl, fun _ _ h => nomatch h⟩
  | some b =>
    cases b with
    | vendors l => exact ⟨_, rfl, fun _ _ h => nomatch h⟩
    | container c =>
      refine ⟨_, rfl, fun _ _ h => ?_⟩
      simp only [Res.ok.injEq, Prod.mk.injEq] at h
      exact h.1.symm

theorem frugal_itemsFrom (p : Nat) : ∀ (l : List Nat) (items : AMap Char Nat), Frugal p p 0 (itemsFrom items l)
  | [], items => Frugal.pure p items
  | a :: l, _ => ((frugal_cellOf a p).bind fun _ => frugal_itemsFrom p l _ : Frugal p p 0 _)

theorem frugal_allocNode (c : NodeCell) : Frugal 6 0 0 (allocNode c) := by
  intro m input
  refine ⟨Nat.le_refl _, Nat.le_refl _, ?_⟩
  show 6 * (m.nodes ++ [c]).length + input.length + 0 ≤ _
  rw [List.length_append, List.length_singleton]
  omega

theorem frugal_superAlloc (b : Boxed) (p : Nat) : Frugal p p 1 (superAlloc b) := by
  intro m input
  rw [superAlloc_eq]
  simp only [List.length_append, List.length_singleton]
  refine ⟨by omega, by omega, by omega⟩

theorem frugal_vendorAlloc (box : Nat) (v : Vendor) (p : Nat) : Frugal p p 0 (vendorAlloc box v) := by
  intro m input
  unfold vendorAlloc
  cases m.boxes[box]? with
  | none => exact ⟨Nat.le_refl _, Nat.le_refl _, by simp only; omega⟩
  | some b =>
    cases b with
    | container c => exact ⟨Nat.le_refl _, Nat.le_refl _, by simp only; omega⟩
    | vendors l => simp only [List.length_set]; exact ⟨Nat.le_refl _, Nat.le_refl _, Nat.le_refl _⟩

theorem frugal_node (t : Target) : ∀ fuel, Frugal 0 0 0 (ldNode t fuel)
  | 0 => Frugal.good (t := t) (P := fun _ => True) Good.fail 0
  | fuel + 1 =>
    ((Frugal.of (Costs.of_eats eats_char) 0).bind fun _ => (Frugal.of costs_f32 1).bind fun _ =>
      (Frugal.of (Costs.of_eats (eats_len t "vec")) 5).bind fun len =>
      (Frugal.times ((frugal_node t fuel).frame 6) len).bind fun byOcc =>
      (frugal_itemsFrom 6 byOcc []).bind fun _ => frugal_allocNode _ : Frugal 0 0 0 _)

theorem frugal_nodeTop (t : Target) : Frugal 0 0 0 (ldNodeTop t) := fun m input => frugal_node t _ m input

theorem frugal_roots (t : Target) : Frugal 0 0 0 (ldRoots t) :=
  ((Frugal.good (good_len t "map") 0).bind fun len => Frugal.times
    ((Frugal.good (good_char t) 0).bind fun _ => (frugal_nodeTop t).bind fun _ =>
      Frugal.pure 0 _ : Frugal 0 0 0 _) len : Frugal 0 0 0 _)

theorem frugal_vendorsLoop (t : Target) (box : Nat) : ∀ (len id : Nat) (tags : AMap Str VendorRef) (byId : List VendorRef),
    Frugal 0 0 0 (ldVendorsLoop t box len id tags byId)
  | 0, _, _, _ => Frugal.pure 0 _
  | len + 1, id, _, _ => ((Frugal.good (good_str t) 0).bind fun _ => (frugal_vendorAlloc box _ 0).bind fun _ =>
      frugal_vendorsLoop t box len (id + 1) _ _ : Frugal 0 0 0 _)

theorem frugal_vendors (t : Target) : Frugal 0 0 1 (ldVendors t) :=
  ((frugal_superAlloc _ 0).bind fun box => (Frugal.good (good_len t "vendors") 0).bind fun len =>
    frugal_vendorsLoop t box len 0 [] [] : Frugal 0 0 1 _)

theorem good_productCell (t : Target) (sid : Nat) (byId : List VendorRef) : Good t (deProductCell t sid byId) fun _ => True :=
  (good_str t).bind fun _ _ => (good_str t).bind fun _ _ => (good_str t).bind fun _ _ => (good_usize t).bind fun _ _ =>
    (Good.ofOption (P := fun _ => True) fun _ _ => trivial).bind fun _ _ => Good.pure trivial

theorem frugal_container (t : Target) : Frugal 0 0 1 (ldContainer t) :=
  ((frugal_vendors t).bind fun r => (Frugal.good (good_usize t) 0).bind fun count =>
    (Frugal.good (Good.timesFrom (fun i => good_productCell t i r.2) count 0) 0).bind fun _ =>
    (Frugal.good (good_map (good_str t) (good_feature t)) 0).bind fun _ => Frugal.pure 0 _ : Frugal 0 0 1 _)

theorem good_refSeq (t : Target) (box count : Nat) : Good t (deRefSeq t box count) fun _ => True :=
  (good_seq t).bind fun _ _ => (Good.ofOption (P := fun _ => True) fun _ _ => trivial).bind fun _ _ => Good.pure trivial

theorem good_refPosting (t : Target) (n box count : Nat) : Good t (deRefPosting t n box count) fun _ => True :=
  (good_array n (good_char t)).bind fun _ _ => (good_refSeq t box count).bind fun _ _ => Good.pure trivial

theorem frugal_gramIndex (t : Target) (n : Nat) : Frugal 0 0 2 (ldGramIndex t n) :=
  ((frugal_container t).bind fun c => (frugal_superAlloc (.container c) 0).bind fun box => (frugal_roots t).bind fun _ =>
    (Frugal.good (good_len t "data") 0).bind fun len => (frugal_containerOf box 0).bind fun c =>
    (Frugal.good (Good.times (good_refPosting t n box c.products.length) len) 0).bind fun _ => Frugal.pure 0 _ : Frugal 0 0 2 _)

theorem good_optionRef (t : Target) (box count sid : Nat) : Good t (deOptionRef t box count sid) fun _ => True :=
  (good_str t).bind fun _ _ => (good_refSeq t box count).bind fun _ _ => Good.pure trivial

theorem good_categoryRef (t : Target) (box count next : Nat) : Good t (deCategoryRef t box count next) fun _ => True :=
  (good_bool t).bind fun _ _ => (good_str t).bind fun _ _ => (good_len t "options").bind fun len _ =>
    (Good.timesFrom (fun i => good_optionRef t box count i) len next).bind fun _ _ => Good.pure trivial

theorem good_categoryRefs (t : Target) (box count : Nat) : ∀ len next, Good t (deCategoryRefs t box count len next) fun _ => True
  | 0, _ => Good.pure trivial
  | len + 1, next => (good_categoryRef t box count next).bind fun _ _ => (good_categoryRefs t box count len _).bind fun _ _ =>
      Good.pure trivial

theorem good_tagRefs (t : Target) (box count : Nat) : Good t (deTagRefs t box count) fun _ => True :=
  (good_len t "tags").bind fun len _ => (Good.timesFrom (P := fun _ _ => True) (fun _ => (good_str t).bind fun _ _ =>
    (good_refSeq t box count).bind fun _ _ => Good.pure trivial) len 0).mono fun _ _ => trivial

theorem good_classicRef (t : Target) (box count : Nat) : Good t (deClassicRef t box count) fun _ => True :=
  (good_len t "categories").bind fun len _ => (good_categoryRefs t box count len 0).bind fun _ _ =>
    (good_tagRefs t box count).bind fun _ _ => (good_map (good_str t) (good_vec (good_usize t))).bind fun _ _ => Good.pure trivial

theorem frugal_all (t : Target) (n : Nat) : Frugal 0 0 2 (ldAll t n) :=
  ((frugal_gramIndex t n).bind fun r => (frugal_containerOf r.container 0).bind fun c =>
    (Frugal.good (good_classicRef t r.container c.products.length) 0).bind fun _ => Frugal.pure 0 _ : Frugal 0 0 2 _)

/-- A success adds at least `k` boxes. -/
def Stores (k : Nat) (l : Ld α) : Prop := ∀ (m : Memory) (input : Bytes) (x : Bytes × α), (l m input).2 = .ok x →
  m.boxes.length + k ≤ (l m input).1.boxes.length

/-- Whatever comes of it, at least one box is added. -/
def Starts (l : Ld α) : Prop := ∀ (m : Memory) (input : Bytes), m.boxes.length + 1 ≤ (l m input).1.boxes.length

theorem Frugal.stores {l : Ld α} {p q b : Nat} (h : Frugal p q b l) : Stores 0 l := fun m input _ _ => (h m input).1

theorem Stores.bind {l : Ld α} {f : α → Ld β} {j k : Nat} (h : Stores j l) (g : ∀ a, Stores k (f a)) : Stores (j + k) (l >>= f) := by
  intro m input x hx
  rw [Ld.bind_apply] at hx ⊢
  have h1 := h m input
  revert h1 hx
  cases l m input with
  | mk m' y =>
    cases y with
    | ok y =>
      obtain ⟨rest, a⟩ := y
      intro hx h1
      have h1 := h1 _ rfl
      have h2 := g a m' rest x hx
      simp only at h1 h2 ⊢
      omega
    | none => intro hx; nomatch hx
    | panic w => intro hx; nomatch hx

theorem Starts.bind {l : Ld α} {f : α → Ld β} (h : Starts l) (g : ∀ a m input, m.boxes.length ≤ (f a m input).1.boxes.length) :
    Starts (l >>= f) := by
  intro m input
  rw [Ld.bind_apply]
  have h1 := h m input
  revert h1
  cases l m input with
  | mk m' y =>
    cases y with
    | ok y =>
      obtain ⟨rest, a⟩ := y
      intro h1
      have h2 := g a m' rest
      simp only at h1 h2 ⊢
      omega
    | none => exact id
    | panic w => exact id

theorem starts_superAlloc (b : Boxed) : Starts (superAlloc b) := by
  intro m input
  rw [superAlloc_eq]
  simp

theorem starts_all (t : Target) (n : Nat) : Starts (ldAll t n) := by
  have h1 : Starts (ldVendors t) := (starts_superAlloc _).bind fun box m input =>
    (((Frugal.good (good_len t "vendors") 0).bind fun len => frugal_vendorsLoop t box len 0 [] [] : Frugal 0 0 0 _) m input).1
  have h2 : Starts (ldContainer t) := h1.bind fun r m input =>
    (((Frugal.good (good_usize t) 0).bind fun count =>
    (Frugal.good (Good.timesFrom (fun i => good_productCell t i r.2) count 0) 0).bind fun _ =>
    (Frugal.good (good_map (good_str t) (good_feature t)) 0).bind fun _ => Frugal.pure 0 _ : Frugal 0 0 0 _) m input).1
  have h3 : Starts (ldGramIndex t n) := h2.bind fun c m input =>
    (((frugal_superAlloc (.container c) 0).bind fun box => (frugal_roots t).bind fun _ =>
    (Frugal.good (good_len t "data") 0).bind fun len => (frugal_containerOf box 0).bind fun c =>
    (Frugal.good (Good.times (good_refPosting t n box c.products.length) len) 0).bind fun _ => Frugal.pure 0 _ : Frugal 0 0 1 _)
      m input).1
  exact h3.bind fun r m input => (((frugal_containerOf r.container 0).bind fun c =>
    (Frugal.good (good_classicRef t r.container c.products.length) 0).bind fun _ => Frugal.pure 0 _ : Frugal 0 0 0 _) m input).1

theorem Starts.stores {l : Ld α} (h : Starts l) : Stores 1 l := fun m input _ _ => h m input

theorem stores_all (t : Target) (n : Nat) : Stores 2 (ldAll t n) := by
  have h2 : Stores 1 (ldContainer t) :=
    ((starts_superAlloc _).stores.bind fun box => ((Frugal.good (good_len t "vendors") 0).bind fun len =>
      frugal_vendorsLoop t box len 0 [] [] : Frugal 0 0 0 _).stores : Stores 1 (ldVendors t)).bind fun r =>
    ((Frugal.good (good_usize t) 0).bind fun count =>
    (Frugal.good (Good.timesFrom (fun i => good_productCell t i r.2) count 0) 0).bind fun _ =>
    (Frugal.good (good_map (good_str t) (good_feature t)) 0).bind fun _ => Frugal.pure 0 _ : Frugal 0 0 0 _).stores
  have h3 : Stores 2 (ldGramIndex t n) := h2.bind fun c => (starts_superAlloc (.container c)).stores.bind fun box =>
    ((frugal_roots t).bind fun _ => (Frugal.good (good_len t "data") 0).bind fun len => (frugal_containerOf box 0).bind fun c =>
    (Frugal.good (Good.times (good_refPosting t n box c.products.length) len) 0).bind fun _ => Frugal.pure 0 _ : Frugal 0 0 0 _).stores
  exact h3.bind fun r => ((frugal_containerOf r.container 0).bind fun c =>
    (Frugal.good (good_classicRef t r.container c.products.length) 0).bind fun _ => Frugal.pure 0 _ : Frugal 0 0 0 _).stores

end Idx
