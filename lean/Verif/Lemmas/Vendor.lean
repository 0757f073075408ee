import Verif.Lemmas.Codec
import Verif.Lemmas.AMap
import Verif.Lemmas.Sort
import Verif.Model.Data
/-! The vendor table. -/
namespace Idx

/-- The vendor table is a function of its list: the hash table has one entry per vendor, names are
distinct and ids are positions. -/
structure VendorManager.Inv (m : VendorManager) : Prop where
  tags_eq : m.tags = m.byId.map fun v => (v.name, v)
  nodup : (m.byId.map (·.name)).Nodup
  ids : ∀ (i : Nat) (v : Vendor), m.byId[i]? = some v → v.id = i

theorem VendorManager.inv_new : VendorManager.new.Inv :=
  ⟨rfl, by simp [VendorManager.new], by simp [VendorManager.new]⟩

theorem VendorManager.getOrInsert_fst (m : VendorManager) (name : Str) :
    (m.getOrInsert name).1 = m.insert name := by
  unfold VendorManager.getOrInsert VendorManager.insert
  split <;> simp_all

theorem VendorManager.Inv.insert {m : VendorManager} (h : m.Inv) (name : Str) :
    (m.insert name).Inv ∧
      (m.insert name).byId = (if name ∈ m.byId.map (·.name) then m.byId
        else m.byId ++ [{ name, id := m.byId.length }]) := by
  have hkeys : m.tags.map (·.1) = m.byId.map (·.name) := by
    rw [h.tags_eq]; simp [Function.comp_def]
  have hlen : m.tags.length = m.byId.length := by rw [h.tags_eq]; simp
  unfold VendorManager.insert
  cases hg : AMap.get m.tags name with
  | some v =>
    have : name ∈ m.byId.map (·.name) := by
      rw [← hkeys, ← AMap.get_isSome_iff, hg]; rfl
    exact ⟨h, by simp [this]⟩
  | none =>
    have hn : name ∉ m.byId.map (·.name) := by
      rw [← hkeys, ← AMap.get_eq_none_iff, hg]
    simp only [if_neg hn, hlen]
    refine ⟨⟨?_, ?_, ?_⟩, trivial⟩
    · rw [AMap.insert, AMap.upsert_of_not_mem (by rw [hkeys]; exact hn), h.tags_eq]; simp
    · simp only [List.map_append, List.map_cons, List.map_nil]
      rw [List.nodup_append]
      refine ⟨h.nodup, by simp, ?_⟩
      intro a ha b hb
      simp only [List.mem_singleton] at hb
      subst hb
      rintro rfl; exact hn ha
    · intro i v hv
      rw [List.getElem?_append] at hv
      split at hv
      · exact h.ids i v hv
      · rename_i hi
        cases hj : i - m.byId.length with
        | zero => rw [hj] at hv; simp at hv; subst hv; simp; omega
        | succ j => rw [hj] at hv; simp at hv

theorem VendorManager.Inv.pairwise {m : VendorManager} (h : m.Inv) :
    m.byId.Pairwise fun a b => a.id < b.id := by
  rw [List.pairwise_iff_getElem]
  intro i j hi hj hij
  rw [h.ids i _ (List.getElem?_eq_getElem hi), h.ids j _ (List.getElem?_eq_getElem hj)]
  exact hij

theorem VendorManager.Inv.get_iff {m : VendorManager} (h : m.Inv) (name : Str) (v : Vendor) :
    m.get name = some v ↔ v ∈ m.byId ∧ v.name = name := by
  have hwf : AMap.Wf m.tags := by
    rw [h.tags_eq, AMap.Wf, List.map_map]; exact h.nodup
  rw [VendorManager.get, ← AMap.mem_iff_get hwf, h.tags_eq]
  simp only [List.mem_map, Prod.mk.injEq]
  constructor
  · rintro ⟨w, hw, rfl, rfl⟩; exact ⟨hw, rfl⟩
  · rintro ⟨hv, rfl⟩; exact ⟨v, hv, rfl, rfl⟩

/-- `timesFrom` reads back a list whose `i`-th element is encoded with its position. -/
theorem timesFrom_rt {ser : α → Bytes} {de : Nat → De β} {f : α → β} (l : List α) : ∀ (i : Nat),
    (∀ j a, l[j]? = some a → RT (ser a) (de (i + j)) (f a)) →
    RT (l.flatMap ser) (De.timesFrom l.length i de) (l.map f) := by
  induction l with
  | nil => intro i _; exact RT.pure
  | cons a l ih =>
    intro i h
    simp only [List.flatMap_cons, List.length_cons, De.timesFrom, List.map_cons]
    refine RT.bind (h 0 a (by simp)) ?_
    refine RT.bind_pure (ih (i + 1) fun j b hb => ?_)
    have := h (j + 1) b (by simpa using hb)
    rwa [show i + (j + 1) = i + 1 + j by omega] at this

theorem serVendors_eq (o : HashOrd) {m : VendorManager} (h : m.Inv) :
    serVendors o m = serUsize m.byId.length ++ m.byId.flatMap serVendor := by
  have : stableSort (fun a b : Vendor => decide (a.id ≤ b.id)) ((o.order "vendors" m.tags).map (·.2)) =
      m.byId := by
    refine stableSort_key_perm ?_ h.pairwise
    refine ((o.perm "vendors" m.tags).map _).trans ?_
    rw [h.tags_eq]; simp [Function.comp_def]
  simp only [serVendors, this]

theorem deVendors_rt {t : Target} (o : HashOrd) {m : VendorManager} (h : m.Inv)
    (hl : Fits t m.byId.length) (hs : ∀ v ∈ m.byId, Carried t (byteLen v.name)) :
    RT (serVendors o m) (deVendors t) m := by
  rw [serVendors_eq o h]
  refine RT.bind (deLen_rt hl _) ?_
  have key : RT (m.byId.flatMap serVendor) (De.timesFrom m.byId.length 0 fun id => do
      let name ← deStr t
      pure ({ name, id } : Vendor)) m.byId := by
    have := timesFrom_rt (f := id) (ser := serVendor) (de := fun id => do
      let name ← deStr t
      pure ({ name, id } : Vendor)) m.byId 0 (fun j v hv => by
        have hid := h.ids j v hv
        have := RT.bind_pure (f := fun name => ({ name, id := 0 + j } : Vendor))
          (deStr_rt (t := t) (hs v (List.mem_of_getElem? hv)))
        refine RT.congr (a := v) ?_ rfl
        have e : ({ name := v.name, id := 0 + j } : Vendor) = v := by
          cases v; simp_all
        rw [e] at this
        exact this)
    simpa using this
  have := RT.bind_pure (f := fun vs => ({ tags := AMap.collect (vs.map fun v : Vendor => (v.name, v)),
                                          byId := vs } : VendorManager)) key
  have e : ({ tags := AMap.collect (m.byId.map fun v : Vendor => (v.name, v)), byId := m.byId } :
      VendorManager) = m := by
    have hwf : AMap.Wf (m.byId.map fun v : Vendor => (v.name, v)) := by
      rw [AMap.Wf, List.map_map]; exact h.nodup
    rw [AMap.collect_of_wf hwf, ← h.tags_eq]
  rw [e] at this
  exact this

end Idx
