import Verif.Props.Locks
import Verif.Props.Price
/-! # A shop, to which the theorems are applied in Props/Instances.lean -/
namespace Idx

namespace Shop

def item (description title id price : String) (tags options media : List String) : RawProduct :=
  { description := description.toList, tags := tags.map (·.toList), title := title.toList, vendor := "v".toList, id := id.toList,
    options := if options = [] then [] else [⟨"size".toList, options.map (·.toList)⟩],
    price := ⟨⟨price.toList, []⟩, ⟨price.toList, []⟩⟩, media := media.map (·.toList) }

/-- Five products; "kunst" is in the texts of two of them. -/
def items : List RawProduct :=
  [item "kunst" "b" "p1" "19.90" ["art"] ["S", "M"] ["x"], item "kunst" "a" "p2" "5" ["art", "sale"] ["M"] [],
   item "musik" "d" "p3" "7.50" ["sale"] [] ["y"], item "musik" "c" "p4" "1" [] [] [], item "water" "e" "p5" "2.25" [] ["S"] ["z"]]

abbrev keep : Char → List Char := fun c => [c]

theorem get_pair {α β : Type} {o : Option (α × β)} (h : o.isSome = true) : o = some ((o.get h).1, (o.get h).2) :=
  (Option.some_get h).symm

theorem getD_some {α : Type} {o : Option (List α)} (h : o.getD [] ≠ []) : o = some (o.getD []) := by
  cases o with
  | none => exact absurd rfl h
  | some _ => rfl

theorem of_length {α : Type} {l : List α} {n : Nat} (h : l.length = n + 1) : l ≠ [] := by rintro rfl; cases h

theorem of_map {α : Type} {l : List α} {f : α → Nat} {a : Nat} {r : List Nat} (h : l.map f = a :: r) : l ≠ [] := by rintro rfl; cases h

theorem toOption_ok {α : Type} {r : Except Panic α} {a : α} (h : r.toOption = some a) : r = .ok a := by
  cases r with
  | error _ => cases h
  | ok b => exact congrArg _ (Option.some.inj h)

def built : Option (GramIndex Char × Classic) := runBuild .wasm32 .ident parseF32 5 items
theorem built_eq : runBuild .wasm32 .ident parseF32 5 items = built := rfl
attribute [irreducible] built

set_option maxRecDepth 20000 in
theorem built_some : built.isSome = true := by decide +kernel

def ix : GramIndex Char := (built.get built_some).1
def cl : Classic := (built.get built_some).2

theorem build : buildAll .wasm32 .ident keep parseF32 5 items = .ok (ix, cl) :=
  runBuild_sound (built_eq.trans (get_pair built_some))
attribute [irreducible] ix cl

def bytes : Bytes := (serializeAllF .ident 6 ix cl).getD []
theorem bytes_eq : (serializeAllF .ident 6 ix cl).getD [] = bytes := rfl
attribute [irreducible] bytes

set_option maxRecDepth 20000 in
theorem bytes_length : bytes.length = 950 := by decide +kernel

theorem serialized : serializeAll .ident ix cl = bytes :=
  serializeAllF_eq ((getD_some (bytes_eq ▸ of_length bytes_length)).trans (congrArg some bytes_eq))

theorem fits : Fits .wasm32 (serializeAll .ident ix cl).length := by
  rw [serialized, bytes_length]
  exact .of_carried (by decide) fun _ _ => rfl

theorem written : indexAndSerialize .wasm32 .ident keep parseF32 5 items = .ok bytes := by
  rw [indexAndSerialize_eq _ _ _ _ (by decide) (by decide), build, ← serialized]
  rfl

def read : Option (GramIndex Char × Classic) := resOption (deserializeAll .wasm32 5 bytes)
theorem read_eq : resOption (deserializeAll .wasm32 5 bytes) = read := rfl
attribute [irreducible] read

set_option maxRecDepth 20000 in
theorem read_some : read.isSome = true := by decide +kernel

/-- The indexes as a page has them. -/
def pix : GramIndex Char := (read.get read_some).1
def pcl : Classic := (read.get read_some).2

theorem load : deserializeAll .wasm32 5 bytes = .ok (pix, pcl) := resOption_ok (read_eq.trans (get_pair read_some))
attribute [irreducible] pix pcl

theorem size : totalChars keep items ≤ 2 ^ 32 := by decide

theorem searchable : Searchable .wasm32 .ident keep parseF32 5 items ix cl := ⟨by decide, by decide, build, size⟩

theorem noNul : NoNul keep items := by unfold NoNul; decide

def kunst : List Char := "kunst".toList

/-- What is found for "kunst" in the built and in the loaded index: the first two products. -/
def found : Option (List (Product × F32)) := (ix.searchF .ident 5 kunst).toOption
theorem found_eq : (ix.searchF .ident 5 kunst).toOption = found := rfl
attribute [irreducible] found
def pfound : Option (List (Product × F32)) := (pix.searchF .ident 5 kunst).toOption
theorem pfound_eq : (pix.searchF .ident 5 kunst).toOption = pfound := rfl
attribute [irreducible] pfound

def results : List (Product × F32) := found.getD []
theorem results_eq : found.getD [] = results := rfl
attribute [irreducible] results
def presults : List (Product × F32) := pfound.getD []
theorem presults_eq : pfound.getD [] = presults := rfl
attribute [irreducible] presults

set_option maxRecDepth 20000 in
theorem result_ids : results.map (·.1.sid) = [0, 1] := by decide +kernel
set_option maxRecDepth 20000 in
theorem presult_ids : presults.map (·.1.sid) = [0, 1] := by decide +kernel

theorem search : ix.search .ident 5 kunst = .ok results := by
  rw [← searchF_eq]
  exact toOption_ok (found_eq.trans ((getD_some (results_eq ▸ of_map result_ids)).trans (congrArg some results_eq)))

theorem psearch : pix.search .ident 5 kunst = .ok presults := by
  rw [← searchF_eq]
  exact toOption_ok (pfound_eq.trans ((getD_some (presults_eq ▸ of_map presult_ids)).trans (congrArg some presults_eq)))

/-- One of them. -/
theorem one_result : ∃ p c, (p, c) ∈ results ∧ p.sid = 0 := by
  have h := result_ids
  generalize results = l at h
  match l, h with
  | (p, c) :: _, h => exact ⟨p, c, List.mem_cons_self, (List.cons.inj h).1⟩

set_option maxRecDepth 20000 in
theorem data_some : ix.data.isEmpty = false := by decide +kernel

/-! What the page can offer. -/

set_option maxRecDepth 20000 in
theorem pcl_tags : pcl.tags.map (fun t => (t.name, t.ids, t.id)) = [("art".toList, [0, 1], 0), ("sale".toList, [1, 2], 1)] := by
  decide +kernel
set_option maxRecDepth 20000 in
theorem pcl_options : pcl.categories.map (fun c => (c.name, c.options.map fun o => (o.name, o.ids))) =
    [("size".toList, [("S".toList, [0, 4]), ("M".toList, [0, 1])])] := by decide +kernel
set_option maxRecDepth 20000 in
theorem pcl_alphabetical : pcl.order.getOrders "Alphabetical".toList = some [1, 0, 3, 2, 4] := by decide +kernel
set_option maxRecDepth 20000 in
theorem pcl_unknown : pcl.order.getOrders "alphabetical".toList = none := by decide +kernel
set_option maxRecDepth 20000 in
theorem pix_products : pix.container.products.length = 5 := by decide +kernel

theorem tagsNumbered : TagsNumbered pcl := by
  intro i t h
  have hm := congrArg (fun l => l[i]?) pcl_tags
  simp only [List.getElem?_map, h, Option.map_some] at hm
  match i, hm with
  | 0, hm => exact congrArg (fun x => x.2.2) (Option.some.inj hm)
  | 1, hm => exact congrArg (fun x => x.2.2) (Option.some.inj hm)

theorem tag_ok (i : Nat) (h : i < 2) : JsTag.Ok ⟨pcl, i⟩ :=
  ⟨tagsNumbered, by have := congrArg List.length pcl_tags; rw [List.length_map] at this; exact this ▸ h⟩

theorem only_category : ∃ cat s m, pcl.categories = [cat] ∧ cat.options = [s, m] ∧ cat.name = "size".toList ∧ s.name = "S".toList ∧
    m.name = "M".toList := by
  have h := pcl_options
  match hc : pcl.categories with
  | [] => rw [hc] at h; cases h
  | [cat] =>
    rw [hc] at h
    have h1 := (Prod.mk.inj (List.cons.inj h).1)
    match ho : cat.options with
    | [] => rw [ho] at h1; cases h1.2
    | [_] => rw [ho] at h1; cases (List.cons.inj h1.2).2
    | [s, m] =>
      rw [ho] at h1
      have h2 := List.cons.inj h1.2
      exact ⟨cat, s, m, rfl, ho, h1.1, (Prod.mk.inj h2.1).1, (Prod.mk.inj (List.cons.inj h2.2).1).1⟩
    | _ :: _ :: _ :: _ => rw [ho] at h1; cases (List.cons.inj (List.cons.inj h1.2).2).2
  | _ :: _ :: _ => rw [hc] at h; cases (List.cons.inj h).2

end Shop
end Idx
