import Verif.Model.Heap
import Verif.Lemmas.Index
/-! The shared cells of the builder always form a forest, and it is the forest of `Model/NGram.lean`. -/
set_option linter.unusedSectionVars false
namespace Idx
variable {G : Type} [DecidableEq G] [RDefault G] {t : Target}

/-- What a `u32` counter holds after counting to `occ`. -/
def Held (t : Target) (occ x : Nat) : Prop := x = occ % 2 ^ 32 ∧ (t.overflowChecks = true → x = occ)

theorem Held.one (t : Target) : Held t 1 1 := ⟨rfl, fun _ => rfl⟩

theorem Held.add {t : Target} {a b x y : Nat} (ha : Held t a x) (hb : Held t b y) :
    (∃ z, addU32 t x y = .ok z ∧ Held t (a + b) z) ∨
      (addU32 t x y = .error .overflow ∧ t.overflowChecks = true ∧ 2 ^ 32 ≤ a + b) := by
  obtain ⟨h1, h2⟩ := ha
  obtain ⟨h3, h4⟩ := hb
  by_cases h : x + y < 2 ^ 32
  · refine .inl ⟨x + y, by rw [addU32, if_pos h], by omega, fun ht => ?_⟩
    rw [h2 ht, h4 ht]
  · by_cases ht : t.overflowChecks = true
    · refine .inr ⟨by rw [addU32, if_neg h, if_pos ht], ht, ?_⟩
      have := h2 ht
      have := h4 ht
      omega
    · exact .inl ⟨(x + y) % 2 ^ 32, by rw [addU32, if_neg h, if_neg ht], by omega, fun e => absurd e ht⟩

/-- The map `m` of cells of `h` is the forest `f`; `fp` are the addresses it reaches, in preorder. -/
inductive Owns t (h : Heap G) : AMap G Nat → List (MNode G) → List Nat → Prop where
  | nil : Owns t h [] [] []
  | cons {g : G} {a occ x : Nat} {items rest : AMap G Nat} {children f : List (MNode G)} {below beside : List Nat} :
      h[a]? = some ⟨g, x, items⟩ → Held t occ x → Owns t h items children below → Owns t h rest f beside →
      Owns t h ((g, a) :: rest) (.mk g occ children :: f) (a :: below ++ beside)

theorem Owns.frame {h h' : Heap G} {m : AMap G Nat} {f : List (MNode G)} {fp : List Nat} (ho : Owns t h m f fp)
    (e : ∀ x ∈ fp, h'[x]? = h[x]?) : Owns t h' m f fp := by
  induction ho with
  | nil => exact .nil
  | cons ha hx _ _ ih1 ih2 =>
    exact .cons (by rw [e _ (by simp)]; exact ha) hx (ih1 fun x hx => e x (by simp [hx])) (ih2 fun x hx => e x (by simp [hx]))

theorem Owns.lt {h : Heap G} {m : AMap G Nat} {f : List (MNode G)} {fp : List Nat} (ho : Owns t h m f fp) :
    ∀ x ∈ fp, x < h.length := by
  induction ho with
  | nil => simp
  | cons ha hx _ _ ih1 ih2 =>
    intro x hx
    rcases List.mem_append.1 hx with hx | hx
    · rcases List.mem_cons.1 hx with rfl | hx
      · exact (List.getElem?_eq_some_iff.1 ha).1
      · exact ih1 x hx
    · exact ih2 x hx

theorem Owns.append {h : Heap G} {m m' : AMap G Nat} {f f' : List (MNode G)} {fp fp' : List Nat} (ho : Owns t h m f fp)
    (ho' : Owns t h m' f' fp') : Owns t h (m ++ m') (f ++ f') (fp ++ fp') := by
  induction ho with
  | nil => exact ho'
  | @cons g a occ x items rest children f below beside ha hx hc _ _ ih2 =>
    have := Owns.cons ha hx hc ih2
    rw [List.append_assoc]
    exact this

theorem Owns.items {h : Heap G} {m : AMap G Nat} {f : List (MNode G)} {fp : List Nat} (ho : Owns t h m f fp) :
    m.map (·.1) = f.map (·.item) := by
  induction ho with
  | nil => rfl
  | cons _ _ _ _ _ ih2 => simp [ih2]

/-- The part of a forest that belongs to one of its nodes. -/
structure OwnedAt (t : Target) (h : Heap G) (m : AMap G Nat) (f : List (MNode G)) (fp : List Nat) (g : G) (a : Nat) where
  m1 : AMap G Nat
  m2 : AMap G Nat
  f1 : List (MNode G)
  f2 : List (MNode G)
  fp1 : List Nat
  fp2 : List Nat
  occ : Nat
  x : Nat
  items : AMap G Nat
  children : List (MNode G)
  below : List Nat
  em : m = m1 ++ (g, a) :: m2
  ef : f = f1 ++ .mk g occ children :: f2
  efp : fp = fp1 ++ (a :: below ++ fp2)
  not_mem : g ∉ f1.map (·.item)
  cell : h[a]? = some ⟨g, x, items⟩
  held : Held t occ x
  o1 : Owns t h m1 f1 fp1
  o2 : Owns t h m2 f2 fp2
  oc : Owns t h items children below

theorem Owns.piece {h : Heap G} {m : AMap G Nat} {f : List (MNode G)} {fp : List Nat} (ho : Owns t h m f fp) {g : G} {a : Nat}
    (hg : AMap.get m g = some a) : Nonempty (OwnedAt t h m f fp g a) := by
  induction ho with
  | nil => simp at hg
  | @cons g' a' occ x items rest children f below beside ha hx hc hr _ ih2 =>
    rw [AMap.get_cons] at hg
    by_cases e : g' = g
    · subst e
      simp only [if_pos] at hg
      cases hg
      exact ⟨⟨[], rest, [], f, [], beside, occ, x, items, children, below, rfl, rfl, rfl, by simp, ha, hx, .nil, hr, hc⟩⟩
    · simp only [e, if_false] at hg
      obtain ⟨p⟩ := ih2 hg
      refine ⟨⟨(g', a') :: p.m1, p.m2, .mk g' occ children :: p.f1, p.f2, a' :: below ++ p.fp1, p.fp2, p.occ, p.x, p.items,
        p.children, p.below, by simp [p.em], by simp [p.ef], by simp [p.efp], ?_, p.cell, p.held, .cons ha hx hc p.o1, p.o2, p.oc⟩⟩
      simp only [List.map_cons, List.mem_cons, not_or]
      exact ⟨fun e' => e e'.symm, p.not_mem⟩

theorem childOf_append_right {f1 f2 : List (MNode G)} {g : G} (h : g ∉ f1.map (·.item)) :
    childOf (f1 ++ f2) g = childOf f2 g := by
  induction f1 with
  | nil => rfl
  | cons n f1 ih =>
    simp only [List.map_cons, List.mem_cons, not_or] at h
    rw [List.cons_append, childOf_cons, if_neg (fun e => h.1 e.symm), ih h.2]

theorem modifyChild_append {f1 f2 : List (MNode G)} {g : G} (upd) (h : g ∉ f1.map (·.item)) :
    modifyChild (f1 ++ f2) g upd = f1 ++ modifyChild f2 g upd := by
  induction f1 with
  | nil => rfl
  | cons n f1 ih =>
    simp only [List.map_cons, List.mem_cons, not_or] at h
    rw [List.cons_append, modifyChild, if_neg (fun e => h.1 e.symm), ih h.2]; rfl

theorem bumpHere_append {f1 f2 : List (MNode G)} {g : G} (h : g ∉ f1.map (·.item)) :
    bumpHere (f1 ++ f2) g = f1 ++ bumpHere f2 g := by
  induction f1 with
  | nil => rfl
  | cons n f1 ih =>
    simp only [List.map_cons, List.mem_cons, not_or] at h
    rw [List.cons_append, bumpHere, if_neg (fun e => h.1 e.symm), ih h.2]; rfl

namespace OwnedAt
variable {h : Heap G} {m : AMap G Nat} {f : List (MNode G)} {fp : List Nat} {g : G} {a : Nat}

theorem childOf (p : OwnedAt t h m f fp g a) : childOf f g = some (.mk g p.occ p.children) := by
  conv => lhs; rw [p.ef]
  rw [childOf_append_right p.not_mem, childOf_cons]; simp

theorem modify (p : OwnedAt t h m f fp g a) (upd) : modifyChild f g upd = p.f1 ++ .mk g p.occ (upd p.children) :: p.f2 := by
  conv => lhs; rw [p.ef]
  rw [modifyChild_append upd p.not_mem, modifyChild]; simp

theorem bump (p : OwnedAt t h m f fp g a) : bumpHere f g = p.f1 ++ .mk g (p.occ + 1) p.children :: p.f2 := by
  conv => lhs; rw [p.ef]
  rw [bumpHere_append p.not_mem, bumpHere]; simp

theorem disj (p : OwnedAt t h m f fp g a) (hd : fp.Nodup) :
    a ∉ p.fp1 ∧ a ∉ p.fp2 ∧ a ∉ p.below ∧ p.below.Nodup ∧ p.fp1.Nodup ∧ p.fp2.Nodup ∧
      (∀ x ∈ p.below, x ∉ p.fp1 ∧ x ∉ p.fp2) ∧ (∀ x ∈ p.fp1, x ∉ p.fp2) := by
  have hd := hd
  rw [p.efp] at hd
  simp only [List.cons_append, List.nodup_append, List.nodup_cons, List.mem_append, List.mem_cons] at hd
  obtain ⟨h1, ⟨h2, h3, h4, h5⟩, h6⟩ := hd
  refine ⟨fun hx => h6 a hx a (.inl rfl) rfl, fun hx => h2 (.inr hx), fun hx => h2 (.inl hx), h3, h1, h4,
    fun x hx => ⟨fun h => h6 x h x (.inr (.inl hx)) rfl, fun h => h5 x hx x h rfl⟩, fun x hx h => h6 x hx x (.inr (.inr h)) rfl⟩

end OwnedAt

theorem mem_of_eq {x y : Nat} {l : List Nat} (e : x = y) (h : y ∈ l) : x ∈ l := e ▸ h

theorem set_other {h : Heap G} {a x : Nat} {c : Cell G} (e : x ≠ a) : (h.set a c)[x]? = h[x]? := by
  rw [List.getElem?_set]; simp [Ne.symm e]

theorem set_same {h : Heap G} {a : Nat} {c c' : Cell G} (e : h[a]? = some c') : (h.set a c)[a]? = some c := by
  rw [List.getElem?_set]
  have := (List.getElem?_eq_some_iff.1 e).1
  simp [this]

/-- Counting an existing node. -/
theorem Owns.bump {h : Heap G} {m : AMap G Nat} {f : List (MNode G)} {fp : List Nat} (ho : Owns t h m f fp) (hd : fp.Nodup)
    {g : G} {a : Nat} {c : Cell G} (hg : AMap.get m g = some a) (hc : h[a]? = some c) :
    ∃ occ, Held t occ c.occ ∧ occAt f [g] = occ ∧
      ∀ z, Held t (occ + 1) z → Owns t (h.set a { c with occ := z }) m (bumpHere f g) fp := by
  obtain ⟨p⟩ := ho.piece hg
  obtain ⟨d1, d2, d3, _⟩ := p.disj hd
  rw [p.cell] at hc
  cases hc
  refine ⟨p.occ, p.held, by simp [occAt, nodeAt, p.childOf], fun z hz => ?_⟩
  rw [p.bump]
  have hfr : ∀ {x}, x ≠ a → (h.set a ⟨g, z, p.items⟩)[x]? = h[x]? := fun e => set_other e
  have := (p.o1.frame (h' := h.set a ⟨g, z, p.items⟩) fun x hx => hfr fun e => d1 (e ▸ hx)).append
    (.cons (set_same p.cell) hz (p.oc.frame fun x hx => hfr fun e => d3 (e ▸ hx))
      (p.o2.frame fun x hx => hfr fun e => d2 (e ▸ hx)))
  rw [← p.em, ← p.efp] at this
  exact this

/-- Adding a node. -/
theorem Owns.add {h : Heap G} {m : AMap G Nat} {f : List (MNode G)} {fp : List Nat} (ho : Owns t h m f fp) {g : G}
    (hg : AMap.get m g = none) :
    Owns t (h ++ [⟨g, 1, []⟩]) (AMap.insert m g h.length) (bumpHere f g) (fp ++ [h.length]) := by
  have hn : g ∉ m.map (·.1) := (AMap.get_eq_none_iff m g).1 hg
  have e : bumpHere f g = f ++ [.mk g 1 []] := by
    have := bumpHere_append (f2 := []) (g := g) (f1 := f) (by rw [← ho.items]; exact hn)
    rw [List.append_nil] at this
    exact this
  rw [AMap.insert, AMap.upsert_of_not_mem hn, e]
  refine (ho.frame fun x hx => ?_).append ?_
  · rw [List.getElem?_append_left (ho.lt x hx)]
  · exact .cons (below := []) (beside := []) (by simp) (Held.one t) .nil .nil

/-! ## Walking -/

/-- The address at the end of a path. -/
def walkAddr (h : Heap G) : AMap G Nat → List G → Option Nat
  | _, [] => none
  | m, [g] => AMap.get m g
  | m, g :: g' :: path => (AMap.get m g).bind fun a => h[a]?.bind fun c => walkAddr h c.items (g' :: path)

/-- Cells only ever get more children. -/
def Grows (h h' : Heap G) : Prop :=
  ∀ (x : Nat) (c : Cell G), h[x]? = some c → ∃ c' : Cell G, h'[x]? = some c' ∧ ∀ g a, AMap.get c.items g = some a → AMap.get c'.items g = some a

theorem Grows.refl (h : Heap G) : Grows h h := fun _ c hc => ⟨c, hc, fun _ _ e => e⟩

theorem Grows.trans {h h' h'' : Heap G} (g1 : Grows h h') (g2 : Grows h' h'') : Grows h h'' := by
  intro x c hc
  obtain ⟨c', hc', e'⟩ := g1 x c hc
  obtain ⟨c'', hc'', e''⟩ := g2 x c' hc'
  exact ⟨c'', hc'', fun g a e => e'' g a (e' g a e)⟩

theorem walkAddr_grows {h h' : Heap G} (hg : Grows h h') {q : List G} : ∀ {m m' : AMap G Nat} {b : Nat},
    (∀ g a, AMap.get m g = some a → AMap.get m' g = some a) → walkAddr h m q = some b → walkAddr h' m' q = some b := by
  induction q with
  | nil => intro m m' b _ hw; exact hw
  | cons g q ih =>
    intro m m' b hm hw
    cases q with
    | nil => exact hm _ _ hw
    | cons g' q =>
      simp only [walkAddr, Option.bind_eq_some_iff] at hw ⊢
      obtain ⟨a, ha, c, hc, hw⟩ := hw
      obtain ⟨c', hc', e⟩ := hg a c hc
      exact ⟨a, hm _ _ ha, c', hc', ih e hw⟩

theorem walkAddr_snoc {h : Heap G} {p : List G} : ∀ {m : AMap G Nat} {a b : Nat} {c : Cell G} {g : G},
    walkAddr h m p = some a → h[a]? = some c → AMap.get c.items g = some b → walkAddr h m (p ++ [g]) = some b := by
  induction p with
  | nil => intro m a b c g hw; simp [walkAddr] at hw
  | cons x p ih =>
    intro m a b c g hw hc hg
    cases p with
    | nil =>
      simp only [walkAddr] at hw
      simp [walkAddr, hw, hc, hg]
    | cons y p =>
      simp only [walkAddr, Option.bind_eq_some_iff] at hw
      obtain ⟨a', ha', c', hc', hw⟩ := hw
      have := ih hw hc hg
      simp only [List.cons_append] at this ⊢
      simp only [walkAddr, Option.bind_eq_some_iff]
      exact ⟨a', ha', c', hc', this⟩

/-- The node of the tree at the end of a path is the cell at the end of the path. -/
theorem Owns.at {h : Heap G} {p : List G} : ∀ {m : AMap G Nat} {f : List (MNode G)} {fp : List Nat} {a : Nat},
    Owns t h m f fp → walkAddr h m p = some a → a ∈ fp ∧ ∃ c, h[a]? = some c ∧ Held t (occAt f p) c.occ ∧ Exists f p := by
  induction p with
  | nil => intro m f fp a _ hw; simp [walkAddr] at hw
  | cons g p ih =>
    intro m f fp a ho hw
    cases p with
    | nil =>
      obtain ⟨q⟩ := ho.piece hw
      refine ⟨by rw [q.efp]; simp, _, q.cell, ?_, ?_⟩
      · simpa [occAt, nodeAt, q.childOf] using q.held
      · simp [Exists, nodeAt, q.childOf]
    | cons g' p =>
      simp only [walkAddr, Option.bind_eq_some_iff] at hw
      obtain ⟨a', ha', c', hc', hw⟩ := hw
      obtain ⟨q⟩ := ho.piece ha'
      rw [q.cell] at hc'
      cases hc'
      obtain ⟨h1, c, hc, h2, h3⟩ := ih q.oc hw
      refine ⟨by rw [q.efp]; simp [h1], c, hc, ?_, ?_⟩
      · rw [occAt_cons_cons, q.childOf]; exact h2
      · simp only [Exists, nodeAt] at h3 ⊢
        rw [q.childOf]; exact h3

/-- Counting the child of a node that has it. -/
theorem Owns.bumpAt {h : Heap G} {p : List G} : ∀ {m : AMap G Nat} {f : List (MNode G)} {fp : List Nat} {a b : Nat} {ca cb : Cell G}
    {g : G}, Owns t h m f fp → fp.Nodup → walkAddr h m p = some a → h[a]? = some ca → AMap.get ca.items g = some b →
    h[b]? = some cb → a ≠ b ∧ b ∈ fp ∧ ∃ occ, Held t occ cb.occ ∧ occAt f (p ++ [g]) = occ ∧
      ∀ z, Held t (occ + 1) z → Owns t (h.set b { cb with occ := z }) m (bumpAt p f g) fp := by
  induction p with
  | nil => intro m f fp a b ca cb g _ _ hw; simp [walkAddr] at hw
  | cons x p ih =>
    intro m f fp a b ca cb g ho hd hw hca hg hcb
    have key : ∀ {a'} (q : OwnedAt t h m f fp x a'), b ∈ q.below →
        (∃ occ, Held t occ cb.occ ∧ occAt q.children (p ++ [g]) = occ ∧ ∀ z, Held t (occ + 1) z →
          Owns t (h.set b { cb with occ := z }) q.items (Idx.bumpAt p q.children g) q.below) →
        b ∈ fp ∧ ∃ occ, Held t occ cb.occ ∧ occAt f (x :: p ++ [g]) = occ ∧ ∀ z, Held t (occ + 1) z →
          Owns t (h.set b { cb with occ := z }) m (Idx.bumpAt (x :: p) f g) fp := by
      intro a' q hb hq
      obtain ⟨occ, ho1, ho2, hq⟩ := hq
      obtain ⟨d1, d2, d3, d4, d5, d6, d7, d8⟩ := q.disj hd
      refine ⟨by rw [q.efp]; simp [hb], occ, ho1, ?_, fun z hz => ?_⟩
      · rw [← ho2]
        cases p with
        | nil => simp only [List.cons_append, List.nil_append]; rw [occAt_cons_cons, q.childOf]; rfl
        | cons y p => simp only [List.cons_append]; rw [occAt_cons_cons, q.childOf]; rfl
      have hq := hq z hz
      rw [Idx.bumpAt, q.modify]
      have hfr : ∀ {y}, y ≠ b → (h.set b { cb with occ := z })[y]? = h[y]? := fun e => set_other e
      have := (q.o1.frame (h' := h.set b { cb with occ := z }) fun y hy => hfr fun e => (d7 b hb).1 (e ▸ hy)).append
        (.cons (g := x) (a := a') (occ := q.occ) (by rw [hfr (y := a') fun e => d3 (mem_of_eq e hb)]; exact q.cell) q.held hq (q.o2.frame fun y hy => hfr fun e => (d7 b hb).2 (e ▸ hy)))
      rw [← q.em, ← q.efp] at this
      exact this
    cases p with
    | nil =>
      obtain ⟨q⟩ := ho.piece hw
      have e := q.cell
      rw [hca] at e
      cases e
      have hd' := q.disj hd
      obtain ⟨r⟩ := q.oc.piece hg
      have hb : b ∈ q.below := by rw [r.efp]; simp
      have hq := q.oc.bump hd'.2.2.2.1 hg hcb
      obtain ⟨k1, k2⟩ := key q hb hq
      exact ⟨fun e => hd'.2.2.1 (e ▸ hb), k1, k2⟩
    | cons y p =>
      simp only [walkAddr, Option.bind_eq_some_iff] at hw
      obtain ⟨a', ha', c', hc', hw⟩ := hw
      obtain ⟨q⟩ := ho.piece ha'
      have e := q.cell
      rw [hc'] at e
      cases e
      obtain ⟨h1, h2, h3⟩ := ih q.oc (q.disj hd).2.2.2.1 hw hca hg hcb
      exact ⟨h1, key q h2 h3⟩

/-- Giving a node a new child. -/
theorem Owns.addAt {h : Heap G} {p : List G} : ∀ {m : AMap G Nat} {f : List (MNode G)} {fp : List Nat} {a : Nat} {ca : Cell G}
    {g : G}, Owns t h m f fp → fp.Nodup → walkAddr h m p = some a → h[a]? = some ca → AMap.get ca.items g = none →
    a ∈ fp ∧ ∃ fp', fp'.Nodup ∧ (∀ x ∈ fp', x ∈ fp ∨ x = h.length) ∧
      Owns t ((h ++ [Cell.mk g 1 []]).set a { ca with items := AMap.insert ca.items g h.length }) m (Idx.bumpAt p f g) fp' := by
  induction p with
  | nil => intro m f fp a ca g _ _ hw; simp [walkAddr] at hw
  | cons x p ih =>
    intro m f fp a ca g ho hd hw hca hg
    have hlt := ho.lt
    have key : ∀ {a'} (q : OwnedAt t h m f fp x a') {items' children' below'},
        ((h ++ [Cell.mk g 1 []]).set a { ca with items := AMap.insert ca.items g h.length })[a']? = some ⟨x, q.x, items'⟩ →
        (a = a' ∨ a ∈ q.below) → below'.Nodup → (∀ y ∈ below', y ∈ q.below ∨ y = h.length) →
        Idx.bumpAt p q.children g = children' →
        Owns t ((h ++ [Cell.mk g 1 []]).set a { ca with items := AMap.insert ca.items g h.length }) items' children' below' →
        ∃ fp', fp'.Nodup ∧ (∀ y ∈ fp', y ∈ fp ∨ y = h.length) ∧
          Owns t ((h ++ [Cell.mk g 1 []]).set a { ca with items := AMap.insert ca.items g h.length }) m (Idx.bumpAt (x :: p) f g) fp' := by
      intro a' q items' children' below' hcell ha hnd hsub hch hq
      obtain ⟨d1, d2, d3, d4, d5, d6, d7, d8⟩ := q.disj hd
      have hl1 : ∀ y ∈ q.fp1, y < h.length := fun y hy => hlt y (by rw [q.efp]; simp [hy])
      have hl2 : ∀ y ∈ q.fp2, y < h.length := fun y hy => hlt y (by rw [q.efp]; simp [hy])
      have hla : a' < h.length := hlt a' (by rw [q.efp]; simp)
      have hb1 : ∀ y ∈ below', y ∉ q.fp1 := fun y hy h1 => by
        rcases hsub y hy with e | e
        · exact (d7 y e).1 h1
        · have := hl1 y h1; omega
      have hb2 : ∀ y ∈ below', y ∉ q.fp2 := fun y hy h1 => by
        rcases hsub y hy with e | e
        · exact (d7 y e).2 h1
        · have := hl2 y h1; omega
      have hb3 : a' ∉ below' := fun hy => by
        rcases hsub a' hy with e | e
        · exact d3 e
        · omega
      have ha1 : a ∉ q.fp1 := by
        rcases ha with rfl | ha
        · exact d1
        · exact (d7 a ha).1
      have ha2 : a ∉ q.fp2 := by
        rcases ha with rfl | ha
        · exact d2
        · exact (d7 a ha).2
      have hfr : ∀ {y}, y < h.length → y ≠ a →
          ((h ++ [Cell.mk g 1 []]).set a { ca with items := AMap.insert ca.items g h.length })[y]? = h[y]? := by
        intro y hy e
        rw [set_other e, List.getElem?_append_left hy]
      refine ⟨q.fp1 ++ (a' :: below' ++ q.fp2), ?_, ?_, ?_⟩
      · simp only [List.cons_append, List.nodup_append, List.nodup_cons, List.mem_append, List.mem_cons]
        refine ⟨d5, ⟨fun h => h.elim hb3 d2, hnd, d6, fun y hy z hz e => hb2 y hy (e ▸ hz)⟩, ?_⟩
        intro y hy z hz e
        subst e
        rcases hz with rfl | hz | hz
        · exact d1 hy
        · exact hb1 y hz hy
        · exact d8 y hy hz
      · intro y hy
        rw [q.efp]
        simp only [List.mem_append, List.mem_cons] at hy ⊢
        rcases hy with hy | (rfl | hy) | hy
        · simp [hy]
        · simp
        · rcases hsub y hy with e | e <;> simp [e]
        · simp [hy]
      · rw [Idx.bumpAt, q.modify, hch]
        have := (q.o1.frame (h' := (h ++ [Cell.mk g 1 []]).set a { ca with items := AMap.insert ca.items g h.length })
          fun y hy => hfr (hl1 y hy) fun e => ha1 (e ▸ hy)).append
          (.cons hcell q.held hq (q.o2.frame fun y hy => hfr (hl2 y hy) fun e => ha2 (e ▸ hy)))
        rw [← q.em] at this
        exact this
    cases p with
    | nil =>
      obtain ⟨q⟩ := ho.piece hw
      have e := q.cell
      rw [hca] at e
      cases e
      have hd' := q.disj hd
      refine ⟨by rw [q.efp]; simp, key q (items' := AMap.insert q.items g h.length) (below' := q.below ++ [h.length]) ?_ (.inl rfl)
        ?_ ?_ rfl ?_⟩
      · exact set_same (by rw [List.getElem?_append_left (List.getElem?_eq_some_iff.1 hca).1]; exact hca)
      · rw [List.nodup_append]
        refine ⟨hd'.2.2.2.1, by simp, fun y hy z hz e => ?_⟩
        have := q.oc.lt y hy
        simp only [List.mem_singleton] at hz
        omega
      · intro y hy
        simpa using hy
      · refine (q.oc.add hg).frame fun y hy => set_other fun e => ?_
        rcases List.mem_append.1 hy with hy | hy
        · exact hd'.2.2.1 (e ▸ hy)
        · have := (List.getElem?_eq_some_iff.1 hca).1
          simp only [List.mem_singleton] at hy
          omega
    | cons y p =>
      simp only [walkAddr, Option.bind_eq_some_iff] at hw
      obtain ⟨a', ha', c', hc', hw⟩ := hw
      obtain ⟨q⟩ := ho.piece ha'
      have e := q.cell
      rw [hc'] at e
      cases e
      obtain ⟨h1, fp', h2, h3, h4⟩ := ih q.oc (q.disj hd).2.2.2.1 hw hca hg
      refine ⟨by rw [q.efp]; simp [h1], key q ?_ (.inr h1) h2 h3 rfl h4⟩
      rw [set_other (x := a') fun e => (q.disj hd).2.2.1 (mem_of_eq e h1), List.getElem?_append_left (List.getElem?_eq_some_iff.1 hc').1]
      exact hc'

/-! ## What a step can do -/

/-- A computation that succeeds with `R`, or stops because a counter would pass `2^32`, which needs `N` grams. -/
def Out (t : Target) (N : Nat) (x : Except HeapPanic α) (R : α → Prop) : Prop :=
  (∃ a, x = .ok a ∧ R a) ∨ (x = .error .overflow ∧ t.overflowChecks = true ∧ 2 ^ 32 ≤ N)

theorem Out.ok {N : Nat} {a : α} {R : α → Prop} (h : R a) : Out t N (.ok a) R := .inl ⟨a, rfl, h⟩

theorem Out.bind {N : Nat} {x : Except HeapPanic α} {R : α → Prop} {k : α → Except HeapPanic β} {S : β → Prop}
    (h : Out t N x R) (hk : ∀ a, R a → Out t N (k a) S) : Out t N (x >>= k) S := by
  rcases h with ⟨a, rfl, ha⟩ | ⟨rfl, h⟩
  · exact hk a ha
  · exact .inr ⟨rfl, h⟩

theorem Out.mono {N : Nat} {x : Except HeapPanic α} {R S : α → Prop} (h : Out t N x R) (hk : ∀ a, R a → S a) :
    Out t N x S := by
  rcases h with ⟨a, rfl, ha⟩ | h
  · exact .inl ⟨a, rfl, hk a ha⟩
  · exact .inr h

theorem Out.add {N a b x y : Nat} (ha : Held t a x) (hb : Held t b y) (hN : a + b ≤ N) :
    Out t N (addU32 t x y) (Held t (a + b)) := by
  rcases ha.add hb with ⟨z, e, hz⟩ | ⟨e, h1, h2⟩
  · exact .inl ⟨z, e, hz⟩
  · exact .inr ⟨e, h1, by omega⟩

theorem Grows.set {h : Heap G} {a : Nat} {c c' : Cell G} (hc : h[a]? = some c)
    (e : ∀ g b, AMap.get c.items g = some b → AMap.get c'.items g = some b) : Grows h (h.set a c') := by
  intro x d hd
  by_cases hx : x = a
  · subst hx
    rw [hc] at hd
    cases hd
    exact ⟨c', set_same hc, e⟩
  · exact ⟨d, by rw [set_other hx]; exact hd, fun _ _ e => e⟩

theorem Grows.append (h : Heap G) (c : Cell G) : Grows h (h ++ [c]) := by
  intro x d hd
  exact ⟨d, by rw [List.getElem?_append_left (List.getElem?_eq_some_iff.1 hd).1]; exact hd, fun _ _ e => e⟩

theorem get_insert_fresh {m : AMap G Nat} {g : G} {b : Nat} (hg : AMap.get m g = none) :
    ∀ x a, AMap.get m x = some a → AMap.get (AMap.insert m g b) x = some a := by
  intro x a hx
  rw [AMap.get_insert]
  split
  · rename_i e; subst e; rw [hg] at hx; cases hx
  · exact hx

theorem walks_grows {h h' : Heap G} (hg : Grows h h') {m m' : AMap G Nat}
    (hm : ∀ g a, AMap.get m g = some a → AMap.get m' g = some a) {ps : List (List G)} : ∀ {as : List Nat},
    ps.map (walkAddr h m) = as.map some → ps.map (walkAddr h' m') = as.map some := by
  induction ps with
  | nil => intro as e; exact e
  | cons p ps ih =>
    intro as e
    cases as with
    | nil => simp at e
    | cons a as =>
      simp only [List.map_cons, List.cons.injEq] at e ⊢
      exact ⟨walkAddr_grows hg hm e.1, ih e.2⟩

theorem occAt_advanceQueue_le {f : List (MNode G)} (hf : ForestOk f) {g : G} {ps : List (List G)}
    (hex : ∀ p ∈ ps, Exists f p) (q : List G) : occAt f q ≤ occAt (advanceQueue g ps f).2 q := by
  rw [advanceQueue_occ g ps f hf hex]; omega

theorem advance_out {N : Nat} {m : AMap G Nat} {g : G} (ps : List (List G)) : ∀ {as : List Nat} {h : Heap G}
    {f : List (MNode G)} {fp : List Nat}, Owns t h m f fp → fp.Nodup → ForestOk f →
    ps.map (walkAddr h m) = as.map some → (∀ q, occAt (advanceQueue g ps f).2 q ≤ N) →
    Out t N (heapAdvance t g as h) fun r => ∃ fp', Owns t r.2 m (advanceQueue g ps f).2 fp' ∧ fp'.Nodup ∧
      (advanceQueue g ps f).1.map (walkAddr r.2 m) = r.1.map some ∧ Grows h r.2 := by
  induction ps with
  | nil =>
    intro as h f fp ho hd _ hw _
    cases as with
    | cons a as => simp at hw
    | nil => exact .ok ⟨fp, ho, hd, rfl, .refl h⟩
  | cons p ps ih =>
    intro as h f fp ho hd hf hw hN
    cases as with
    | nil => simp at hw
    | cons a as =>
      simp only [List.map_cons, List.cons.injEq] at hw
      obtain ⟨hw, hws⟩ := hw
      have hexp : ∀ {p}, p ∈ ps → Exists f p := by
        intro p hp
        have : walkAddr h m p ∈ as.map some := by rw [← hws]; exact List.mem_map_of_mem hp
        obtain ⟨b, _, hb⟩ := List.mem_map.1 this
        obtain ⟨_, _, _, _, e⟩ := ho.at hb.symm
        exact e
      obtain ⟨_, c, hc, _, hex⟩ := ho.at hw
      have hf' := hf.bumpAt p g
      have hexp' : ∀ p' ∈ ps, Exists (bumpAt p f g) p' := by
        intro p' hp'
        rw [exists_iff_pos hf']
        rcases (exists_iff_pos hf p').1 (hexp hp') with e | e
        · exact .inl e
        · rw [occAt_bumpAt p f g p' hex]; exact .inr (by omega)
      have hlast : occAt f (p ++ [g]) + 1 ≤ N := by
        have h1 := occAt_bumpAt p f g (p ++ [g]) hex
        have h2 := occAt_advanceQueue_le (g := g) hf' hexp' (p ++ [g])
        have h3 := hN (p ++ [g])
        simp only [advanceQueue] at h3
        simp at h1
        omega
      have first : Out t N (advanceCell t g h a) fun r => ∃ fp', Owns t r.2 m (bumpAt p f g) fp' ∧ fp'.Nodup ∧
          walkAddr r.2 m (p ++ [g]) = some r.1 ∧ Grows h r.2 := by
        rw [advanceCell]
        have e : borrowMut none h a = .ok c := by simp [borrowMut, hc]
        rw [e]
        show Out t N (entryIn t (some a) h c.items g >>= _) _
        rw [entryIn]
        cases hb : AMap.get c.items g with
        | some b =>
          have hwb := walkAddr_snoc hw hc hb
          obtain ⟨_, cb, hcb, _, _⟩ := ho.at hwb
          obtain ⟨hne, _, occ, hh, hocc, hset⟩ := ho.bumpAt hd hw hc hb hcb
          have e : borrowMut (some a) h b = .ok cb := by simp [borrowMut, hcb, hne]
          simp only []
          rw [e]
          show Out t N ((addU32 t cb.occ 1 >>= _) >>= _) _
          refine .bind (R := fun r => ∃ z, Held t (occ + 1) z ∧ r = (h.set b { cb with occ := z }, c.items, b))
            (.bind (Out.add hh (Held.one t) (by omega)) fun z hz => .ok ⟨z, hz, rfl⟩) ?_
          rintro r ⟨z, hz, rfl⟩
          have hc' : (h.set b { cb with occ := z })[a]? = some c := by rw [set_other hne]; exact hc
          have hself : (h.set b { cb with occ := z }).set a c = h.set b { cb with occ := z } := by
            obtain ⟨hl, e⟩ := List.getElem?_eq_some_iff.1 hc'
            conv => lhs; rw [← e]
            exact List.set_getElem_self hl
          refine .ok ?_
          show ∃ fp', Owns t ((h.set b { cb with occ := z }).set a c) m _ fp' ∧ _ ∧
            walkAddr ((h.set b { cb with occ := z }).set a c) m _ = _ ∧ Grows h ((h.set b { cb with occ := z }).set a c)
          rw [hself]
          have hgr : Grows h (h.set b { cb with occ := z }) := .set hcb fun _ _ e => e
          exact ⟨fp, hset z hz, hd, walkAddr_grows hgr (fun _ _ e => e) hwb, hgr⟩
        | none =>
          obtain ⟨_, fp', hnd, _, ho'⟩ := ho.addAt hd hw hc hb
          have hla : (h ++ [Cell.mk g 1 []])[a]? = some c := by
            rw [List.getElem?_append_left (List.getElem?_eq_some_iff.1 hc).1]; exact hc
          have hgr : Grows h ((h ++ [Cell.mk g 1 []]).set a { c with items := AMap.insert c.items g h.length }) :=
            (Grows.append h _).trans (.set hla (get_insert_fresh hb))
          refine .ok ⟨fp', ho', hnd, ?_, hgr⟩
          exact walkAddr_snoc (walkAddr_grows hgr (fun _ _ e => e) hw) (set_same hla) (by simp [AMap.get_insert])
      rw [heapAdvance]
      refine .bind first ?_
      rintro ⟨child, h1⟩ ⟨fp1, ho1, hd1, hw1, hg1⟩
      have := ih ho1 hd1 hf' (walks_grows hg1 (fun _ _ e => e) hws) (fun q => hN q)
      refine .bind this ?_
      rintro ⟨queue, h2⟩ ⟨fp2, ho2, hd2, hw2, hg2⟩
      refine .ok ⟨fp2, ho2, hd2, ?_, hg1.trans hg2⟩
      show List.map _ ((p ++ [g]) :: (advanceQueue g ps (bumpAt p f g)).1) = _
      simp only [List.map_cons, List.cons.injEq]
      exact ⟨walkAddr_grows hg2 (fun _ _ e => e) hw1, hw2⟩

/-- The loops on shared cells and on plain trees are in corresponding states. -/
structure SameState (t : Target) (hst : HeapState G) (st : BuildState G) : Prop where
  owns : ∃ fp, Owns t hst.heap hst.root st.root fp ∧ fp.Nodup
  queue : st.queue.map (walkAddr hst.heap hst.root) = hst.queue.map some
  data : hst.data = st.data
  lookback : hst.lookback = st.lookback

theorem gram_out {N n : Nat} {p : Product} {hst : HeapState G} {st : BuildState G} (hs : SameState t hst st) (hf : ForestOk st.root)
    (g : G) (hN : ∀ q, occAt (buildGram n p st g).root q ≤ N) :
    Out t N (heapGram t n p hst g) fun hst' => SameState t hst' (buildGram n p st g) := by
  obtain ⟨fp, ho, hd⟩ := hs.owns
  have hf' := hf.bumpHere g
  have hexp : ∀ p' ∈ st.queue, Exists (bumpHere st.root g) p' := by
    intro p' hp
    have : walkAddr hst.heap hst.root p' ∈ hst.queue.map some := by rw [← hs.queue]; exact List.mem_map_of_mem hp
    obtain ⟨b, _, hb⟩ := List.mem_map.1 this
    obtain ⟨_, _, _, _, e⟩ := ho.at hb.symm
    rw [exists_iff_pos hf']
    rcases (exists_iff_pos hf p').1 e with e | e
    · exact .inl e
    · rw [occAt_bumpHere]; exact .inr (by omega)
  have hN' : ∀ q, occAt (advanceQueue g st.queue (bumpHere st.root g)).2 q ≤ N := fun q => hN q
  have hfirst : occAt st.root [g] + 1 ≤ N := by
    have h1 := occAt_bumpHere st.root g [g]
    have h2 := occAt_advanceQueue_le (g := g) hf' hexp [g]
    have h3 := hN' [g]
    simp at h1
    omega
  have first : Out t N (entryIn t none hst.heap hst.root g) fun r => (∃ fp', Owns t r.1 r.2.1 (bumpHere st.root g) fp' ∧ fp'.Nodup) ∧
      AMap.get r.2.1 g = some r.2.2 ∧ Grows hst.heap r.1 ∧ ∀ x a, AMap.get hst.root x = some a → AMap.get r.2.1 x = some a := by
    rw [entryIn]
    cases hb : AMap.get hst.root g with
    | some b =>
      obtain ⟨q⟩ := ho.piece hb
      obtain ⟨occ, hh, hocc, hset⟩ := ho.bump hd hb q.cell
      have e : borrowMut none hst.heap b = .ok ⟨g, q.x, q.items⟩ := by simp [borrowMut, q.cell]
      simp only []
      rw [e]
      refine .bind (R := fun z => Held t (occ + 1) z) (Out.add hh (Held.one t) (by omega)) fun z hz => ?_
      exact .ok ⟨⟨fp, hset z hz, hd⟩, hb, .set q.cell fun _ _ e => e, fun _ _ e => e⟩
    | none =>
      refine .ok ⟨⟨_, ho.add hb, ?_⟩, by simp [AMap.get_insert], .append _ _, get_insert_fresh hb⟩
      rw [List.nodup_append]
      refine ⟨hd, by simp, fun y hy z hz e => ?_⟩
      have := ho.lt y hy
      simp only [List.mem_singleton] at hz
      omega
  rw [heapGram]
  refine .bind first ?_
  rintro ⟨h1, root, node⟩ ⟨⟨fp1, ho1, hd1⟩, hnode, hg1, hm1⟩
  refine .bind (advance_out st.queue ho1 hd1 hf' (walks_grows hg1 hm1 hs.queue) hN') ?_
  rintro ⟨queue, h2⟩ ⟨fp2, ho2, hd2, hw2, hg2⟩
  refine .ok ⟨⟨fp2, ho2, hd2⟩, ?_, ?_, ?_⟩
  · have hall : ([g] :: (advanceQueue g st.queue (bumpHere st.root g)).1).map (walkAddr h2 root) = (node :: queue).map some := by
      simp only [List.map_cons, List.cons.injEq]
      exact ⟨hnode, hw2⟩
    have hlen := congrArg List.length hall
    simp only [List.length_map] at hlen
    simp only [buildGram]
    rw [hlen]
    by_cases e : (node :: queue).length = n
    · rw [if_pos e, if_pos e, List.map_dropLast, List.map_dropLast, hall]
    · rw [if_neg e, if_neg e, hall]
  · simp only [buildGram, hs.data, hs.lookback]
  · simp only [buildGram, hs.lookback]

theorem text_out {N n : Nat} (hn : 1 ≤ n) {f0 : List (MNode G)} {posts : List G → List Product} {p : Product} (rest : List G) :
    ∀ {done : List G} {hst : HeapState G} {st : BuildState G}, SameState t hst st → TextInv n f0 posts p done st →
    (∀ q, occAt f0 q + (done ++ rest).length ≤ N) →
    Out t N (rest.foldlM (heapGram t n p) hst) fun hst' => SameState t hst' (rest.foldl (buildGram n p) st) := by
  induction rest with
  | nil => intro done hst st hs _ _; exact .ok hs
  | cons g rest ih =>
    intro done hst st hs hi hN
    have hi' := textInv_step hn hi g
    rw [List.foldlM_cons]
    refine .bind (gram_out hs hi.ok g fun q => ?_) fun hst' hs' => ih hs' hi' fun q => ?_
    · rw [hi'.occ]
      have h1 := occurrences_le_length q (done ++ [g])
      have h2 := hN q
      simp only [List.length_append, List.length_cons, List.length_nil] at h1 h2
      split <;> omega
    · have := hN q
      simp only [List.length_append, List.length_cons, List.length_nil] at this ⊢
      omega

/-- The same for the loop over all texts. -/
def SameForest (t : Target) (acc : Heap G × AMap G Nat × AMap (List G) (List Product))
    (acc' : List (MNode G) × AMap (List G) (List Product)) : Prop :=
  (∃ fp, Owns t acc.1 acc.2.1 acc'.1 fp ∧ fp.Nodup) ∧ acc.2.2 = acc'.2

theorem feeds_out {n : Nat} (hn : 1 ≤ n) {N : Nat} (rest : List (List G × Product)) : ∀ {done : List (List G × Product)} {acc acc'},
    SameForest t acc acc' → FeedsInv n done acc' → totalGrams (done ++ rest) ≤ N →
    Out t N (rest.foldlM (heapFeed t n) acc) fun r => SameForest t r (rest.foldl (buildFeed n) acc') := by
  induction rest with
  | nil => intro done acc acc' hs _ _; exact .ok hs
  | cons feed rest ih =>
    intro done acc acc' hs hi hN
    have hi' := feedsInv_step hn hi feed
    rw [List.foldlM_cons]
    have htot : totalGrams (done ++ feed :: rest) = totalGrams done + feed.1.length + totalGrams rest := by
      simp [totalGrams, Nat.add_assoc]
    refine .bind (R := fun r => SameForest t r (buildFeed n acc' feed)) ?_ fun r hr => ih hr hi' ?_
    · rw [heapFeed]
      have h0 : TextInv n acc'.1 (postings n done) feed.2 []
          { root := acc'.1, data := acc'.2, queue := [], lookback := List.replicate n dflt } := by
        refine ⟨hi.ok, by simp [suffixPaths], fun q => by simp [occurrences_nil], by simp [windowAfter], hi.wf, fun k => ?_⟩
        rw [hi.data]; simp [postingOf, paddedWindows_nil]
      refine .bind (text_out hn feed.1 (hst := ⟨acc.1, acc.2.1, acc.2.2, [], List.replicate n dflt⟩) ⟨hs.1, rfl, hs.2, rfl⟩ h0 fun q => ?_) fun hst hst' => .ok ⟨hst'.owns, hst'.data⟩
      rw [hi.occ]
      have := occurrencesIn_le_total q done
      simp only [List.nil_append]
      split <;> omega
    · rw [List.append_assoc]
      exact hN

/-! ## Finishing -/

/-- The tree with its counters cut to 32 bits. -/
def MNode.low : MNode G → MNode G
  | .mk item occ items => .mk item (occ % 2 ^ 32) (items.attach.map fun ⟨c, _⟩ => c.low)

theorem MNode.low_mk (item : G) (occ : Nat) (items : List (MNode G)) :
    (MNode.mk item occ items).low = .mk item (occ % 2 ^ 32) (items.map MNode.low) := by
  rw [MNode.low]
  congr 1
  exact List.attach_map_val (l := items) (f := MNode.low)

theorem immutalize_mk (o : HashOrd) (path : List G) (k : Nat) (item : G) (occ : Nat) (items : List (MNode G)) :
    immutalize o path k (.mk item occ items) = .mk item (occurancesToWeight k occ)
      (stableSort (fun a b => (GramNode.cmp a b).swap != .gt)
        (o.order (path ++ [item]) (items.map (immutalize o (path ++ [item]) occ)))) := by
  rw [immutalize]
  congr 3
  exact List.attach_map_val (l := items) (f := immutalize o (path ++ [item]) occ)

theorem mapM_cons_ok {α β ε : Type} {F : α → Except ε β} {x : α} {xs : List α} {y : β} {ys : List β} (h : F x = .ok y)
    (hs : xs.mapM F = .ok ys) : (x :: xs).mapM F = .ok (y :: ys) := by
  rw [List.mapM_cons, h]
  show (xs.mapM F >>= fun ys => pure (y :: ys)) = _
  rw [hs]
  rfl

theorem Owns.finish {o : HashOrd} {h : Heap G} {m : AMap G Nat} {f : List (MNode G)} {fp : List Nat} (ho : Owns t h m f fp) :
    ∀ (path : List G) (k depth : Nat), fp.length ≤ depth →
      m.mapM (fun e => immutalizeIn o h path k depth e.2) = .ok (f.map fun n => immutalize o path k n.low) := by
  induction ho with
  | nil => intros; rfl
  | @cons g a occ x items rest children f below beside ha hx hc hr ih1 ih2 =>
    intro path k depth hd
    simp only [List.cons_append, List.length_cons, List.length_append] at hd
    obtain ⟨d, rfl⟩ : ∃ d, depth = d + 1 := ⟨depth - 1, by omega⟩
    refine mapM_cons_ok ?_ (ih2 path k (d + 1) (by omega))
    show immutalizeIn o h path k (d + 1) a = .ok (immutalize o path k (MNode.mk g occ children).low)
    rw [immutalizeIn, cellAt, ha, MNode.low_mk, immutalize_mk, ← hx.1, List.map_map]
    show (items.mapM (fun e => immutalizeIn o h (path ++ [g]) x d e.2) >>= _) = _
    rw [ih1 (path ++ [g]) x d (by omega)]
    rfl

theorem mapM_pair {α β ε κ : Type} {F : κ × α → Except ε β} : ∀ {l : List (κ × α)} {r : List β}, l.mapM F = .ok r →
    l.mapM (fun e => (F e).map fun x => (e.1, x)) = .ok ((l.map (·.1)).zip r) := by
  intro l
  induction l with
  | nil => intro r h; cases h; rfl
  | cons e l ih =>
    intro r h
    rw [List.mapM_cons] at h
    cases hF : F e with
    | error w => rw [hF] at h; cases h
    | ok y =>
      rw [hF] at h
      cases hl : l.mapM F with
      | error w => rw [hl] at h; cases h
      | ok ys =>
        rw [hl] at h
        cases h
        exact mapM_cons_ok (by rw [hF]; rfl) (ih hl)

theorem sum_out {N : Nat} (xs : List (Nat × Nat)) : ∀ {a x : Nat}, Held t a x → (∀ e ∈ xs, Held t e.1 e.2) →
    a + (xs.map (·.1)).sum ≤ N →
    Out t N ((xs.map (·.2)).foldlM (addU32 t) x) (Held t (a + (xs.map (·.1)).sum)) := by
  induction xs with
  | nil => intro a x h _ _; exact .ok h
  | cons e xs ih =>
    intro a x h hs hN
    simp only [List.map_cons, List.sum_cons, List.foldlM_cons] at *
    refine .bind (Out.add h (hs e (by simp)) (by omega)) fun z hz => ?_
    have := ih hz (fun e he => hs e (by simp [he])) (by omega)
    rw [Nat.add_assoc] at this
    exact this

theorem sumU32_out {N : Nat} (xs : List (Nat × Nat)) (hs : ∀ e ∈ xs, Held t e.1 e.2) (hN : (xs.map (·.1)).sum ≤ N) :
    Out t N (sumU32 t (xs.map (·.2))) (Held t (xs.map (·.1)).sum) := by
  cases xs with
  | nil => exact .ok ⟨rfl, fun _ => rfl⟩
  | cons e xs =>
    simp only [List.map_cons, List.sum_cons, sumU32] at *
    exact sum_out xs (hs e (by simp)) (fun e' he => hs e' (by simp [he])) hN

theorem mapM_of_forall {α β ε : Type} {F : α → Except ε β} {v : α → β} : ∀ {l : List α}, (∀ e ∈ l, F e = .ok (v e)) →
    l.mapM F = .ok (l.map v) := by
  intro l
  induction l with
  | nil => intro _; rfl
  | cons e l ih => intro h; exact mapM_cons_ok (h e (by simp)) (ih fun e he => h e (by simp [he]))

theorem occAt_item {f : List (MNode G)} (hf : (f.map (·.item)).Nodup) {m : MNode G} (hm : m ∈ f) : occAt f [m.item] = m.occ := by
  induction f with
  | nil => simp at hm
  | cons n f ih =>
    rw [List.map_cons, List.nodup_cons] at hf
    simp only [occAt, nodeAt, childOf_cons] at ih ⊢
    rcases List.mem_cons.1 hm with rfl | hm
    · simp
    · have : ¬ n.item = m.item := fun e => hf.1 (e ▸ List.mem_map_of_mem hm)
      simp only [this, if_false]
      exact ih hf.2 hm

theorem Owns.total {h : Heap G} {m : AMap G Nat} {f : List (MNode G)} {fp : List Nat} (ho : Owns t h m f fp) (hf : ForestOk f) :
    (m.map fun e => occAt f [e.1]).sum = (f.map (·.occ)).sum := by
  have e1 : (m.map fun e => occAt f [e.1]) = (m.map (·.1)).map fun g => occAt f [g] := by rw [List.map_map]; rfl
  rw [e1, ho.items, List.map_map]
  congr 1
  apply List.map_congr_left
  intro n hn
  exact occAt_item hf.nodup hn

theorem Owns.low {h : Heap G} {m : AMap G Nat} {f : List (MNode G)} {fp : List Nat} (ho : Owns t h m f fp) (hf : ForestOk f)
    (hq : ∀ q, occAt f q < 2 ^ 32) : f.map MNode.low = f := by
  induction ho with
  | nil => rfl
  | @cons g a occ x items rest children f below beside ha hx hc hr ih1 ih2 =>
    have hnd := hf.nodup
    rw [List.map_cons, List.nodup_cons] at hnd
    have hchild : childOf (MNode.mk g occ children :: f) g = some (.mk g occ children) := by simp [childOf_cons]
    have hocc : occ < 2 ^ 32 := by
      have := hq [g]
      simpa [occAt, nodeAt, hchild] using this
    have hch := ih1 (hf.child (.mk g occ children) (by simp)) fun q => by
      cases q with
      | nil => simp [occAt]
      | cons y r =>
        have := hq (g :: y :: r)
        rw [occAt_cons_cons, hchild] at this
        exact this
    have hrest : ForestOk f := .mk hnd.2 (fun n hn => hf.pos n (by simp [hn])) (fun n hn => hf.child n (by simp [hn]))
    have hr := ih2 hrest fun q => by
      cases q with
      | nil => simp [occAt]
      | cons y r =>
        by_cases e : g = y
        · have : childOf f y = none := by
            subst e
            rw [childOf, List.find?_eq_none]
            intro n hn
            simp only [decide_eq_true_eq]
            intro e
            exact hnd.1 (List.mem_map.2 ⟨n, hn, e⟩)
          cases r with
          | nil => simp [occAt, nodeAt, this]
          | cons z r => rw [occAt_cons_cons, this]; simp
        · have := hq (y :: r)
          have e' : childOf (MNode.mk g occ children :: f) y = childOf f y := by simp [childOf_cons, e]
          cases r with
          | nil => simpa [occAt, nodeAt, e'] using this
          | cons z r => rw [occAt_cons_cons, e'] at this; rw [occAt_cons_cons]; exact this
    rw [List.map_cons, MNode.low_mk, hch, hr, Nat.mod_eq_of_lt hocc]

/-- The whole of `index_from`: stopped by a counter, or the index with counters cut to 32 bits. -/
theorem index_out (o : HashOrd) {n : Nat} (hn : 1 ≤ n) (feeds : List (List G × Product)) (c : Container) :
    Out t (totalGrams feeds) (heapIndexFrom t o n feeds c) fun ix =>
      (t.overflowChecks = true → totalGrams feeds < 2 ^ 32) ∧
      ix = { indexFrom t o n feeds c with
        roots := o.order "roots" ((forestOf n feeds).map fun m => (m.item, immutalize o [] (totalGrams feeds % 2 ^ 32) m.low)) } := by
  rw [heapIndexFrom]
  refine .bind (feeds_out hn feeds (done := []) (acc' := ([], [])) ⟨⟨[], .nil, by simp⟩, rfl⟩ (feedsInv_nil n) (by simp)) ?_
  rintro ⟨heap, root, data⟩ ⟨⟨fp, ho, hd⟩, hdata⟩
  have hf := forest_ok hn feeds
  change Owns t heap root (forestOf n feeds) fp at ho
  have hw : AMap.Wf root := by rw [AMap.Wf, ho.items]; exact hf.nodup
  have hcell : ∀ e : G × Nat, ∃ x, e ∈ root → (cellAt heap e.2).map (·.occ) = .ok x ∧ Held t (occAt (forestOf n feeds) [e.1]) x := by
    intro e
    by_cases he : e ∈ root
    · obtain ⟨q⟩ := ho.piece (AMap.get_of_mem hw he)
      refine ⟨q.x, fun _ => ⟨by rw [cellAt, q.cell]; rfl, ?_⟩⟩
      simp only [occAt, nodeAt, q.childOf]
      exact q.held
    · exact ⟨0, fun h => absurd h he⟩
  obtain ⟨v, hv⟩ := Classical.axiomOfChoice hcell
  have hp := o.perm "occurances" root
  have hmap : (o.order "occurances" root).mapM (fun e => (cellAt heap e.2).map (·.occ)) = .ok ((o.order "occurances" root).map v) :=
    mapM_of_forall fun e he => (hv e (hp.mem_iff.1 he)).1
  refine .bind (R := fun occs => occs = (o.order "occurances" root).map v) (.inl ⟨_, hmap, rfl⟩) ?_
  rintro _ rfl
  have hsum : ((o.order "occurances" root).map fun e => occAt (forestOf n feeds) [e.1]).sum = totalGrams feeds := by
    rw [(hp.map _).sum_nat, ho.total hf, forest_total]
  have hs := sumU32_out (t := t) (N := totalGrams feeds)
    ((o.order "occurances" root).map fun e => (occAt (forestOf n feeds) [e.1], v e)) (by
      intro e he
      obtain ⟨e', he', rfl⟩ := List.mem_map.1 he
      exact (hv e' (hp.mem_iff.1 he')).2) (by
      rw [List.map_map]; exact Nat.le_of_eq hsum)
  rw [List.map_map, List.map_map] at hs
  refine .bind hs ?_
  intro total ht
  have ht : Held t (totalGrams feeds) total := by rw [← hsum]; exact ht
  have hlen : fp.length ≤ heap.length := by
    have := List.Nodup.length_le_of_subset hd (l₂ := List.range heap.length) fun x hx => List.mem_range.2 (ho.lt x hx)
    rwa [List.length_range] at this
  have hroots := mapM_pair (ho.finish (o := o) [] total heap.length hlen)
  refine .bind (R := fun r => r = (root.map (·.1)).zip ((forestOf n feeds).map fun n => immutalize o [] total n.low))
    (.inl ⟨_, hroots, rfl⟩) ?_
  rintro _ rfl
  refine .ok ⟨fun hc => ?_, ?_⟩
  · have h1 := ht.1
    have h2 := ht.2 hc
    omega
  · rw [← ht.1, ho.items, indexFrom]
    change data = (feeds.foldl (buildFeed n) ([], [])).2 at hdata
    simp only [hdata]
    congr 2
    rw [List.zip_map']

end Idx
