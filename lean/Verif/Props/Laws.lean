import Verif.Model.Laws
import Verif.Props.Alike
import Verif.Lemmas.Run
/-! # C114: which laws the equalities and orders obey -/
namespace Idx

/-- Products are numbered by their position, and every product listed anywhere is the product of its number. -/
structure AllListed (ix : GramIndex Char) (cl : Classic) : Prop where
  sid : ∀ (i : Nat) (p : Product), ix.container.products[i]? = some p → p.sid = i
  data : ∀ e ∈ ix.data, ∀ p ∈ e.2, ix.container.products[p.sid]? = some p
  tags : ∀ tag ∈ cl.tags, ∀ p ∈ tag.products, ix.container.products[p.sid]? = some p
  options : ∀ cat ∈ cl.categories, ∀ op ∈ cat.options, ∀ p ∈ op.content, ix.container.products[p.sid]? = some p

theorem Made.allListed {ix cl} (h : Made ix cl) : AllListed ix cl := by
  cases h with
  | built hn h =>
    have hg := gramWf_of_built hn h
    have hc := classicWf_of_built h
    exact ⟨hg.container.sid, fun e he => (hg.grams e he).2.mem, fun tag ht => (hc.tags tag ht).mem,
      fun cat hcat op hop => (hc.options cat hcat op hop).mem⟩
  | @loaded t n bytes h =>
    rw [deserializeAll_eq] at h
    cases hb : deBoth t n bytes with
    | none => rw [hb] at h; cases h
    | panic w => rw [hb] at h; cases h
    | ok r =>
      obtain ⟨rest, a⟩ := r
      rw [hb] at h
      simp only [Res.bind_ok, Res.ok.injEq] at h
      subst h
      obtain ⟨_, hg, hc⟩ := (good_both t n).ok _ _ _ hb
      exact ⟨hg.container.sid, fun e he => (hg.postings e he).2, hc.tags.stored, fun cat hcat op hop => (hc.options cat hcat op hop).stored⟩

/-! ## Symmetry -/

theorem feq_symm (x y : F32) : F32.feq x y = F32.feq y x := by
  unfold F32.feq
  cases x.val <;> cases y.val <;> simp [Bool.and_comm]

theorem listEqv_symm {α : Type} {eq : α → α → Bool} (h : ∀ a b, eq a b = eq b a) : ∀ l l', listEqv eq l l' = listEqv eq l' l
  | [], [] => rfl
  | [], _ :: _ => rfl
  | _ :: _, [] => rfl
  | a :: l, b :: l' => by rw [listEqv, listEqv, h a b, listEqv_symm h l l']

theorem mapEqv_symm [DecidableEq K] {eq : V → V → Bool} (hs : ∀ a b, eq a b = eq b a) {a b : AMap K V} (ha : AMap.Wf a)
    (hb : AMap.Wf b) : mapEqv eq a b = mapEqv eq b a := by
  have key : ∀ {a b : AMap K V}, AMap.Wf a → AMap.Wf b → mapEqv eq a b = true → mapEqv eq b a = true := by
    intro a b ha hb h
    have hg := get_of_mapEqv ha h
    simp only [mapEqv, Bool.and_eq_true, beq_iff_eq, List.all_eq_true] at h ⊢
    refine ⟨h.1.symm, fun e he => ?_⟩
    have := hg e.1
    rw [AMap.get_of_mem hb (k := e.1) (v := e.2) he] at this
    cases hk : AMap.get a e.1 with
    | none => rw [hk] at this; exact this.elim
    | some v => rw [hk] at this; simp only; rw [hs]; exact this
  rw [Bool.eq_iff_iff]
  exact ⟨key ha hb, key hb ha⟩

theorem product_symm (p q : Product) : p.eqv q = q.eqv p := by
  rw [Bool.eq_iff_iff]
  exact ⟨C46_symm p q, C46_symm q p⟩

theorem feature_symm (f g : Feature) : f.eqv g = g.eqv f := by
  cases f <;> cases g <;> simp only [Feature.eqv]
  · exact Bool.beq_comm
  · exact listEqv_symm feq_symm _ _
  · exact Bool.beq_comm

theorem go_symm : ∀ (l l' : List (GramNode Char)), (∀ a ∈ l, ∀ b, a.eqv b = b.eqv a) → GramNode.eqv.go l l' = GramNode.eqv.go l' l
  | [], [], _ => rfl
  | [], _ :: _, _ => by simp [GramNode.eqv.go]
  | _ :: _, [], _ => by simp [GramNode.eqv.go]
  | a :: l, b :: l', h => by
    rw [GramNode.eqv.go, GramNode.eqv.go, h a (by simp) b, go_symm l l' fun c hc => h c (by simp [hc])]

theorem node_symm (a : GramNode Char) : ∀ b, a.eqv b = b.eqv a := by
  induction a using GramNode.depth_induct with
  | h i w l ih =>
    rintro ⟨i', w', l'⟩
    rw [GramNode.eqv, GramNode.eqv, go_symm l l' ih, feq_symm w w', Bool.beq_comm (a := i)]

theorem setEqv_symm {a b : List Nat} (h : ∀ s, s ∈ a ↔ s ∈ b) : setEqv a b = setEqv b a := by
  unfold setEqv
  rw [Bool.beq_comm (a := a.length)]
  congr 1
  rw [Bool.eq_iff_iff]
  simp only [List.all_eq_true, decide_eq_true_eq]
  exact ⟨fun _ x hx => (h x).2 hx, fun _ x hx => (h x).1 hx⟩

theorem listEqv_symm_mem {α : Type} {eq : α → α → Bool} : ∀ l l', (∀ a ∈ l, ∀ b ∈ l', eq a b = eq b a) → listEqv eq l l' = listEqv eq l' l
  | [], [], _ => rfl
  | [], _ :: _, _ => rfl
  | _ :: _, [], _ => rfl
  | a :: l, b :: l', h => by
    rw [listEqv, listEqv, h a (by simp) b (by simp),
      listEqv_symm_mem l l' fun x hx y hy => h x (by simp [hx]) y (by simp [hy])]

/-- Equality of products lists and of the sets of their numbers is symmetric. -/
theorem listed_symm {l l' : List Product} {a b : List Nat} (ha : ∀ s, s ∈ a ↔ ∃ p ∈ l, p.sid = s) (hb : ∀ s, s ∈ b ↔ ∃ p ∈ l', p.sid = s) :
    (listEqv Product.eqv l l' && setEqv a b) = (listEqv Product.eqv l' l && setEqv b a) := by
  rw [listEqv_symm product_symm l' l]
  cases h : listEqv Product.eqv l l' with
  | false => rfl
  | true => rw [setEqv_symm fun s => by rw [ha, hb]; exact exists_sid h s]

/-- Equality of indexes is symmetric, for indexes built from a catalogue or read from bytes. -/
theorem C114_symm {ix ix' : GramIndex Char} {cl cl' : Classic} (hm : Made ix cl) (hm' : Made ix' cl') :
    ix.eqv ix' = ix'.eqv ix ∧ cl.eqv cl' = cl'.eqv cl := by
  have hw := hm.wellMade
  have hw' := hm'.wellMade
  constructor
  · have hv : ix.container.vendors.eqv ix'.container.vendors = ix'.container.vendors.eqv ix.container.vendors := by
      rw [Bool.eq_iff_iff, C94_vendors hm hm', C94_vendors hm' hm]
      exact eq_comm
    simp only [GramIndex.eqv, Container.eqv]
    rw [mapEqv_symm (fun a b => node_symm a b) hw.roots hw'.roots, mapEqv_symm (listEqv_symm product_symm) hw.data hw'.data,
      listEqv_symm product_symm ix.container.products, hv, mapEqv_symm feature_symm hw.extra hw'.extra]
  · simp only [Classic.eqv]
    rw [mapEqv_symm (fun a b => Bool.beq_comm) hw.order hw'.order]
    have ht : listEqv Tag.eqv cl.tags cl'.tags = listEqv Tag.eqv cl'.tags cl.tags := by
      refine listEqv_symm_mem _ _ fun a ha b hb => ?_
      have h2 := listed_symm (hw.tags a ha) (hw'.tags b hb)
      simp only [Tag.eqv, Bool.and_assoc]
      rw [← Bool.and_assoc (listEqv _ _ _), h2, Bool.and_assoc, Bool.beq_comm (a := a.name), Bool.beq_comm (a := a.id)]
    have hc : listEqv Category.eqv cl.categories cl'.categories = listEqv Category.eqv cl'.categories cl.categories := by
      refine listEqv_symm_mem _ _ fun a ha b hb => ?_
      have h2 : listEqv CatOption.eqv a.options b.options = listEqv CatOption.eqv b.options a.options := by
        refine listEqv_symm_mem _ _ fun x hx y hy => ?_
        have h3 := listed_symm (hw.options a ha x hx) (hw'.options b hb y hy)
        simp only [CatOption.eqv, Bool.and_assoc]
        rw [h3, Bool.beq_comm (a := x.name), Bool.beq_comm (a := x.sid)]
      simp only [Category.eqv]
      rw [h2, Bool.beq_comm (a := a.name), Bool.beq_comm (a := a.exclusive)]
    rw [ht, hc]

/-! ## Reflexivity -/

theorem go_self : ∀ (l : List (GramNode Char)), GramNode.eqv.go l l = true ↔ ∀ c ∈ l, GramNode.eqv c c = true
  | [] => by simp [GramNode.eqv.go]
  | a :: l => by rw [GramNode.eqv.go, Bool.and_eq_true, go_self l, List.forall_mem_cons]

theorem listEqv_self {α : Type} (eq : α → α → Bool) (l : List α) : listEqv eq l l = true ↔ ∀ a ∈ l, eq a a = true := by
  have := listEqv_map eq id l
  rw [List.map_id] at this
  exact this

theorem mapEqv_self [DecidableEq K] {eq : V → V → Bool} {m : AMap K V} (hm : AMap.Wf m) :
    mapEqv eq m m = true ↔ ∀ e ∈ m, eq e.2 e.2 = true := by
  have := mapEqv_reload (eq := eq) (f := id) hm (List.Perm.refl m)
  simpa using this

theorem has_of_eqv {ix : GramIndex Char} (h : ∀ e ∈ ix.roots, GramNode.eqv e.2 e.2 = true) :
    ∀ {path : List Char} {c : GramNode Char}, ix.Has path c → GramNode.eqv c c = true := by
  intro path c hc
  induction hc with
  | root he => exact h _ he
  | @child path m c _ hmem ih =>
    obtain ⟨i, w, l⟩ := m
    rw [GramNode.eqv, Bool.and_eq_true] at ih
    exact (go_self l).1 ih.2 c hmem

/-- An index is equal to itself exactly if no weight in its trees and no number in its features is NaN; its tags, categories
and orders are always equal to themselves. -/
theorem C114_self {ix : GramIndex Char} {cl : Classic} (hm : Made ix cl) :
    (ix.eqv ix = true ↔ (∀ path c, ix.Has path c → c.weight.val ≠ .nan) ∧
      ∀ k l, (k, Feature.float l) ∈ ix.container.extra → ∀ x ∈ l, x.val ≠ .nan) ∧ cl.eqv cl = true := by
  have hw := hm.wellMade
  constructor
  · have hv : ix.container.vendors.eqv ix.container.vendors = true := (C94_vendors hm hm).2 rfl
    simp only [GramIndex.eqv, Container.eqv, Bool.and_eq_true, hv, and_true]
    rw [mapEqv_self hw.roots, mapEqv_self hw.data, listEqv_self, mapEqv_self hw.extra]
    constructor
    · rintro ⟨⟨h1, _⟩, _, h4⟩
      refine ⟨fun path c hc => ?_, fun k l hl => (Feature.eqv_self _).1 (h4 _ hl) l rfl⟩
      have := has_of_eqv h1 hc
      obtain ⟨i, w, l⟩ := c
      rw [GramNode.eqv, Bool.and_eq_true, Bool.and_eq_true] at this
      exact (feq_self w).1 this.1.2
    · rintro ⟨h1, h2⟩
      refine ⟨⟨fun e he => eqv_of_has h1 e.2 [e.1] (.root he), fun e _ => (listEqv_self _ _).2 fun p _ => C46_refl p⟩,
        fun p _ => C46_refl p, fun e he => (Feature.eqv_self _).2 fun l hl => h2 e.1 l (hl ▸ he)⟩
  · simp only [Classic.eqv, Bool.and_eq_true]
    refine ⟨⟨(listEqv_self _ _).2 fun cat _ => ?_, (listEqv_self _ _).2 fun tag _ => ?_⟩, (mapEqv_self hw.order).2 fun _ _ => by simp⟩
    · simp only [Category.eqv, BEq.rfl, Bool.true_and, Bool.and_true]
      refine (listEqv_self _ _).2 fun op _ => ?_
      simp only [CatOption.eqv, BEq.rfl, Bool.true_and, setEqv_self, Bool.and_true]
      exact (listEqv_self _ _).2 fun p _ => C46_refl p
    · simp only [Tag.eqv, BEq.rfl, Bool.true_and, setEqv_self, Bool.and_true]
      exact (listEqv_self _ _).2 fun p _ => C46_refl p

/-! ## Transitivity -/

theorem feq_trans {x y z : F32} (h : F32.feq x y = true) (h' : F32.feq y z = true) : F32.feq x z = true := by
  refine F32.feq_of_like ((F32.like_of_feq h).trans (F32.like_of_feq h')) fun e => ?_
  rw [F32.feq, e] at h
  cases h

theorem listEqv_trans {α : Type} {eq : α → α → Bool} : ∀ {l l' l'' : List α},
    (∀ a ∈ l, ∀ b ∈ l', ∀ c ∈ l'', eq a b = true → eq b c = true → eq a c = true) →
    listEqv eq l l' = true → listEqv eq l' l'' = true → listEqv eq l l'' = true
  | [], [], [], _, _, _ => rfl
  | a :: l, b :: l', c :: l'', ht, h, h' => by
    simp only [listEqv, Bool.and_eq_true] at h h' ⊢
    exact ⟨ht a (by simp) b (by simp) c (by simp) h.1 h'.1,
      listEqv_trans (fun x hx y hy z hz => ht x (by simp [hx]) y (by simp [hy]) z (by simp [hz])) h.2 h'.2⟩
  | [], _ :: _, _, _, h, _ => by simp [listEqv] at h
  | _ :: _, [], _, _, h, _ => by simp [listEqv] at h
  | [], [], _ :: _, _, _, h => by simp [listEqv] at h
  | _ :: _, _ :: _, [], _, _, h => by simp [listEqv] at h

theorem mapEqv_trans [DecidableEq K] {eq : V → V → Bool} {a b c : AMap K V} (ha : AMap.Wf a) (hb : AMap.Wf b)
    (ht : ∀ k u v w, (k, u) ∈ a → (k, v) ∈ b → (k, w) ∈ c → eq u v = true → eq v w = true → eq u w = true)
    (h : mapEqv eq a b = true) (h' : mapEqv eq b c = true) : mapEqv eq a c = true := by
  have hg := get_of_mapEqv ha h
  have hg' := get_of_mapEqv hb h'
  simp only [mapEqv, Bool.and_eq_true, beq_iff_eq, List.all_eq_true] at h h' ⊢
  refine ⟨h.1.trans h'.1, fun e he => ?_⟩
  have h1 := hg e.1
  have h2 := hg' e.1
  rw [AMap.get_of_mem ha (k := e.1) (v := e.2) he] at h1
  cases hv : AMap.get b e.1 with
  | none => rw [hv] at h1; exact h1.elim
  | some v =>
    rw [hv] at h1 h2
    cases hw : AMap.get c e.1 with
    | none => rw [hw] at h2; exact h2.elim
    | some w =>
      rw [hw] at h2
      exact ht e.1 e.2 v w he (AMap.mem_of_get hv) (AMap.mem_of_get hw) h1 h2

theorem feature_trans {f g h : Feature} (h1 : f.eqv g = true) (h2 : g.eqv h = true) : f.eqv h = true := by
  cases f <;> cases g <;> simp only [Feature.eqv, Bool.false_eq_true] at h1 <;> cases h <;>
    simp only [Feature.eqv, Bool.false_eq_true, beq_iff_eq] at h1 h2 ⊢
  · rw [h1, h2]
  · exact listEqv_trans (fun _ _ _ _ _ _ h h' => feq_trans h h') h1 h2
  · rw [h1, h2]

theorem go_trans : ∀ {l l' l'' : List (GramNode Char)}, (∀ a ∈ l, ∀ b c, a.eqv b = true → b.eqv c = true → a.eqv c = true) →
    GramNode.eqv.go l l' = true → GramNode.eqv.go l' l'' = true → GramNode.eqv.go l l'' = true
  | [], [], [], _, _, _ => by simp [GramNode.eqv.go]
  | a :: l, b :: l', c :: l'', ht, h, h' => by
    rw [GramNode.eqv.go, Bool.and_eq_true] at h h' ⊢
    exact ⟨ht a (by simp) b c h.1 h'.1, go_trans (fun x hx => ht x (by simp [hx])) h.2 h'.2⟩
  | [], _ :: _, _, _, h, _ => by simp [GramNode.eqv.go] at h
  | _ :: _, [], _, _, h, _ => by simp [GramNode.eqv.go] at h
  | [], [], _ :: _, _, _, h => by simp [GramNode.eqv.go] at h
  | _ :: _, _ :: _, [], _, _, h => by simp [GramNode.eqv.go] at h

theorem node_trans (a : GramNode Char) : ∀ b c, a.eqv b = true → b.eqv c = true → a.eqv c = true := by
  induction a using GramNode.depth_induct with
  | h i w l ih =>
    rintro ⟨i', w', l'⟩ ⟨i'', w'', l''⟩ h h'
    rw [GramNode.eqv, Bool.and_eq_true, Bool.and_eq_true, beq_iff_eq] at h h' ⊢
    exact ⟨⟨h.1.1.trans h'.1.1, feq_trans h.1.2 h'.1.2⟩, go_trans ih h.2 h'.2⟩

theorem setEqv_trans {a b c : List Nat} (h : setEqv a b = true) (h' : setEqv b c = true) : setEqv a c = true := by
  simp only [setEqv, Bool.and_eq_true, beq_iff_eq, List.all_eq_true, decide_eq_true_eq] at h h' ⊢
  exact ⟨h.1.trans h'.1, fun x hx => h'.2 x (h.2 x hx)⟩

/-- Lists of products of three indexes: the outer two are equal if the products are. -/
theorem listed_trans {ps ps'' l l' l'' : List Product} (hp : listEqv Product.eqv ps ps'' = true) (hl : ∀ p ∈ l, ps[p.sid]? = some p)
    (hl'' : ∀ p ∈ l'', ps''[p.sid]? = some p) (h : listEqv Product.eqv l l' = true) (h' : listEqv Product.eqv l' l'' = true) :
    listEqv Product.eqv l l'' = true := by
  refine listEqv_trans (fun a ha b _ c hc hab hbc => ?_) h h'
  have hs : a.sid = c.sid := (Product.eqv_sid hab).trans (Product.eqv_sid hbc)
  have h1 := hl a ha
  have h2 := hl'' c hc
  rw [hs] at h1
  have := (both_of_listEqv hp).getElem? c.sid
  rw [h1, h2] at this
  exact this

/-- Equality of indexes is transitive up to the products: if the first equals the second and the second the third, then the
first equals the third exactly if their products are equal one by one. -/
theorem C114_trans {ix ix' ix'' : GramIndex Char} {cl cl' cl'' : Classic} (hm : Made ix cl) (hm' : Made ix' cl') (hm'' : Made ix'' cl'')
    (h1 : ix.eqv ix' = true) (h2 : ix'.eqv ix'' = true) (h3 : cl.eqv cl' = true) (h4 : cl'.eqv cl'' = true) :
    (ix.eqv ix'' = true ↔ listEqv Product.eqv ix.container.products ix''.container.products = true) ∧
    (listEqv Product.eqv ix.container.products ix''.container.products = true → cl.eqv cl'' = true) := by
  have hw := hm.wellMade
  have hw' := hm'.wellMade
  have hl := hm.allListed
  have hl'' := hm''.allListed
  constructor
  · simp only [GramIndex.eqv, Container.eqv, Bool.and_eq_true] at h1 h2 ⊢
    constructor
    · exact fun h => h.2.1.1
    · intro hp
      refine ⟨⟨mapEqv_trans hw.roots hw'.roots (fun _ u v w _ _ _ => node_trans u v w) h1.1.1 h2.1.1,
        mapEqv_trans hw.data hw'.data (fun k u v w hu _ hww => listed_trans hp (hl.data _ hu) (hl''.data _ hww)) h1.1.2 h2.1.2⟩,
        ⟨hp, ?_⟩, mapEqv_trans hw.extra hw'.extra (fun _ u v w _ _ _ => feature_trans) h1.2.2 h2.2.2⟩
      rw [C94_vendors hm hm'']
      exact ((C94_vendors hm hm').1 h1.2.1.2).trans ((C94_vendors hm' hm'').1 h2.2.1.2)
  · intro hp
    simp only [Classic.eqv, Bool.and_eq_true] at h3 h4 ⊢
    refine ⟨⟨listEqv_trans (fun a ha b _ c hc hab hbc => ?_) h3.1.1 h4.1.1, listEqv_trans (fun a ha b _ c hc hab hbc => ?_) h3.1.2 h4.1.2⟩,
      mapEqv_trans hw.order hw'.order (fun _ u v w _ _ _ h h' => ?_) h3.2 h4.2⟩
    · simp only [Category.eqv, Bool.and_eq_true, beq_iff_eq] at hab hbc ⊢
      refine ⟨⟨hab.1.1.trans hbc.1.1, listEqv_trans (fun x hx y _ z hz hxy hyz => ?_) hab.1.2 hbc.1.2⟩, hab.2.trans hbc.2⟩
      simp only [CatOption.eqv, Bool.and_eq_true, beq_iff_eq] at hxy hyz ⊢
      exact ⟨⟨⟨hxy.1.1.1.trans hyz.1.1.1, hxy.1.1.2.trans hyz.1.1.2⟩,
        listed_trans hp (hl.options a ha x hx) (hl''.options c hc z hz) hxy.1.2 hyz.1.2⟩, setEqv_trans hxy.2 hyz.2⟩
    · simp only [Tag.eqv, Bool.and_eq_true, beq_iff_eq] at hab hbc ⊢
      exact ⟨⟨⟨hab.1.1.1.trans hbc.1.1.1, listed_trans hp (hl.tags a ha) (hl''.tags c hc) hab.1.1.2 hbc.1.1.2⟩,
        setEqv_trans hab.1.2 hbc.1.2⟩, hab.2.trans hbc.2⟩
    · simp only [beq_iff_eq] at h h' ⊢
      exact h.trans h'

/-! ## The orders -/

/-- Products and nodes that are equal are neither before nor after each other. -/
theorem C114_equal (p q : Product) (a b : GramNode Char) :
    (p.eqv q = true → p.cmp q = .eq) ∧ (a.eqv b = true → a.cmp b = .eq) := by
  constructor
  · intro h
    rw [Product.cmp, Product.eqv_sid h]
    exact Nat.compare_eq_eq.2 rfl
  · intro h
    obtain ⟨i, w, l⟩ := a
    obtain ⟨i', w', l'⟩ := b
    rw [GramNode.eqv, Bool.and_eq_true, Bool.and_eq_true] at h
    have hf := h.1.2
    show F32.cmpOrEq w w' = .eq
    unfold F32.feq at hf
    unfold F32.cmpOrEq F32.partialCmp
    split at hf
    · cases hf
    · cases hf
    · rename_i hx hy
      simp only [Bool.and_eq_true, Bool.not_eq_true'] at hf
      rw [hf.1, hf.2]
      cases w.val <;> cases w'.val <;> rfl

/-- Among the products of one index the three ways to say "the same" agree. -/
theorem C114_products {ix : GramIndex Char} {cl : Classic} (hm : Made ix cl) {p q : Product} (hp : p ∈ ix.container.products)
    (hq : q ∈ ix.container.products) : (p.cmp q = .eq ↔ p = q) ∧ (p.eqv q = true ↔ p = q) := by
  have key : p.sid = q.sid → p = q := by
    intro h
    obtain ⟨i, hi⟩ := List.mem_iff_getElem?.1 hp
    obtain ⟨j, hj⟩ := List.mem_iff_getElem?.1 hq
    have h1 := hm.allListed.sid i p hi
    have h2 := hm.allListed.sid j q hj
    rw [show i = j by omega, hj] at hi
    exact (Option.some.inj hi).symm
  refine ⟨⟨fun h => key (Nat.compare_eq_eq.1 h), fun h => by subst h; exact Nat.compare_eq_eq.2 rfl⟩,
    ⟨fun h => key (Product.eqv_sid h), fun h => by subst h; exact C46_refl p⟩⟩

/-! ## Which laws fail -/

/-- What is loaded from the file of one product with this description and the tag "t", without any n-gram. -/
def oneDescribed (d : Str) : Option (GramIndex Char × Classic) :=
  resOption (deserializeAll .debug64 5 (serializeAll .ident
    { container := { products := [⟨d, [], ⟨[], 0⟩, [], 0⟩], vendors := { tags := [([], ⟨[], 0⟩)], byId := [⟨[], 0⟩] }, extra := [] },
      roots := [], data := [] }
    { categories := [], tags := [⟨['t'], [⟨d, [], ⟨[], 0⟩, [], 0⟩], [0], 0⟩], order := [] }))

/-- What is checked of two of them. -/
def bothEqual (a b : Option (GramIndex Char × Classic)) : Option (Bool × Bool) :=
  a.bind fun x => b.map fun y => (x.1.eqv y.1, x.2.eqv y.2)

theorem bothEqual_some {a b : Option (GramIndex Char × Classic)} {x y : GramIndex Char × Classic} {r : Bool × Bool} (ha : a = some x)
    (hb : b = some y) (h : bothEqual a b = some r) : x.1.eqv y.1 = r.1 ∧ x.2.eqv y.2 = r.2 := by
  subst ha hb
  simp only [bothEqual, Option.bind_some, Option.map_some, Option.some.injEq] at h
  subst h
  exact ⟨rfl, rfl⟩

theorem described_made {d : Str} {ix : GramIndex Char} {cl : Classic} (h : oneDescribed d = some (ix, cl)) : Made ix cl :=
  .loaded (resOption_ok h)

set_option maxRecDepth 20000 in
/-- Equality of indexes is not transitive: of three files the first and the second give equal indexes, the second and the
third too, the first and the third do not. The order of products calls their products the same all the same. -/
theorem C114_false : ∃ ix cl ix' cl' ix'' cl'', Made ix cl ∧ Made ix' cl' ∧ Made ix'' cl'' ∧
    (ix.eqv ix' = true ∧ cl.eqv cl' = true) ∧ (ix'.eqv ix'' = true ∧ cl'.eqv cl'' = true) ∧
    (ix.eqv ix'' = false ∧ cl.eqv cl'' = false) ∧
    ∃ p ∈ ix.container.products, ∃ q ∈ ix''.container.products, p.cmp q = .eq ∧ p.eqv q = false := by
  have h1 : (oneDescribed ['a', 'b']).isSome = true := by decide +kernel
  have h2 : (oneDescribed ['a']).isSome = true := by decide +kernel
  have h3 : (oneDescribed ['a', 'c']).isSome = true := by decide +kernel
  have h12 : bothEqual (oneDescribed ['a', 'b']) (oneDescribed ['a']) = some (true, true) := by decide +kernel
  have h23 : bothEqual (oneDescribed ['a']) (oneDescribed ['a', 'c']) = some (true, true) := by decide +kernel
  have h13 : bothEqual (oneDescribed ['a', 'b']) (oneDescribed ['a', 'c']) = some (false, false) := by decide +kernel
  have hp : ((oneDescribed ['a', 'b']).bind fun x => (oneDescribed ['a', 'c']).bind fun y =>
      (x.1.container.products.head?).bind fun p => (y.1.container.products.head?).map fun q =>
        (decide (p.cmp q = .eq), p.eqv q)) = some (true, false) := by decide +kernel
  obtain ⟨⟨ix, cl⟩, e1⟩ := Option.isSome_iff_exists.1 h1
  obtain ⟨⟨ix', cl'⟩, e2⟩ := Option.isSome_iff_exists.1 h2
  obtain ⟨⟨ix'', cl''⟩, e3⟩ := Option.isSome_iff_exists.1 h3
  refine ⟨ix, cl, ix', cl', ix'', cl'', described_made e1, described_made e2, described_made e3, bothEqual_some e1 e2 h12,
    bothEqual_some e2 e3 h23, bothEqual_some e1 e3 h13, ?_⟩
  rw [e1, e3] at hp
  simp only [Option.bind_some] at hp
  obtain ⟨p, hp1, hp2⟩ := Option.bind_eq_some_iff.1 hp
  obtain ⟨q, hq1, hq2⟩ := Option.map_eq_some_iff.1 hp2
  simp only [Prod.mk.injEq] at hq2
  exact ⟨p, List.mem_of_head? hp1, q, List.mem_of_head? hq1, of_decide_eq_true hq2.1, hq2.2⟩

set_option maxRecDepth 20000 in
/-- An index with the price NaN is not even equal to itself. -/
theorem C114_nan : ∃ ix cl, Made ix cl ∧ ix.eqv ix = false := by
  have h : ((runBuild .debug64 .ident (fun _ => some F32.nan) 5 [mkRaw [] [] ['1']]).map fun r => r.1.eqv r.1) = some false := by
    decide +kernel
  obtain ⟨⟨ix, cl⟩, h1, h2⟩ := Option.map_eq_some_iff.1 h
  exact ⟨ix, cl, .built (by decide) (runBuild_sound h1), h2⟩

end Idx
