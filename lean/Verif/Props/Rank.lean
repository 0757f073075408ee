import Verif.Props.Scores
import Verif.Props.Search
import Verif.Lemmas.Run
/-! # C107: more of the text never ranks lower -/
set_option exponentiation.threshold 300
namespace Idx

/-! ## Adding floats keeps their order -/

namespace F32

theorem NonNeg.add_comm {x y : F32} (hx : NonNeg x) (hy : NonNeg y) : F32.add x y = F32.add y x := by
  rcases hx with ⟨m, hm⟩ | hx
  · rcases hy with ⟨n, hn⟩ | hy
    · simp only [F32.add, hm, hn, if_true, Nat.add_comm m n]
    · simp only [F32.add, hm, hy]
  · rcases hy with ⟨n, hn⟩ | hy
    · simp only [F32.add, hx, hn]
    · simp only [F32.add, hx, hy]

theorem lt_self {x : F32} (hx : NonNeg x) : lt x x = false := by
  rcases hx with ⟨m, hm⟩ | hx
  · rw [lt_fin hm hm]; simp
  · exact lt_inf_left hx

theorem lt_fin_inf {x y : F32} {m : Nat} (hx : x.val = .fin false m) (hy : y.val = .inf false) : lt x y = true := by
  unfold lt; rw [hx, hy]; rfl

theorem lt_false_trans {x y z : F32} (hx : NonNeg x) (hy : NonNeg y) (hz : NonNeg z) (h1 : lt y x = false)
    (h2 : lt z y = false) : lt z x = false := by
  rcases hz with ⟨l, hl⟩ | hz
  · rcases hy with ⟨n, hn⟩ | hy
    · rcases hx with ⟨m, hm⟩ | hx
      · rw [lt_fin hn hm] at h1
        rw [lt_fin hl hn] at h2
        rw [lt_fin hl hm]
        simp only [decide_eq_false_iff_not, Nat.not_lt] at *
        exact Nat.le_trans h1 h2
      · rw [lt_fin_inf hn hx] at h1; cases h1
    · rw [lt_fin_inf hl hy] at h2; cases h2
  · exact lt_inf_left hz

/-- Rounded addition is monotone. -/
theorem NonNeg.add_mono {x y c : F32} (hx : NonNeg x) (hy : NonNeg y) (hc : NonNeg c) (h : lt y x = false) :
    lt (F32.add y c) (F32.add x c) = false := by
  rcases hc with ⟨k, hk⟩ | hc
  · rcases hy with ⟨n, hn⟩ | hy
    · rcases hx with ⟨m, hm⟩ | hx
      · rw [lt_fin hn hm] at h
        have hle : m ≤ n := Nat.not_lt.1 (of_decide_eq_false h)
        have e1 : F32.add x c = ofRatio false (m + k) 1 := by simp only [F32.add, hm, hk, if_true]
        have e2 : F32.add y c = ofRatio false (n + k) 1 := by simp only [F32.add, hn, hk, if_true]
        have hr : roundMag (m + k) 1 ≤ roundMag (n + k) 1 :=
          roundMag_mono Nat.one_pos Nat.one_pos (Nat.mul_le_mul_right 1 (Nat.add_le_add_right hle k))
        rw [e1, e2]
        rcases Classical.em (roundMag (n + k) 1 < 2 ^ 277) with hlt | hlt
        · have hlt' := Nat.lt_of_le_of_lt hr hlt
          rw [lt_fin (val_ofRatio false _ _ hlt) (val_ofRatio false _ _ hlt')]
          exact decide_eq_false (Nat.not_lt.2 hr)
        · exact lt_inf_left (val_pack_ge (rep_roundMag _ _) hlt)
      · rw [lt_fin_inf hn hx] at h; cases h
    · have e : F32.add y c = inf false := by simp only [F32.add, hy, hk]
      rw [e]; exact lt_inf_left val_inf
  · rcases hy with ⟨n, hn⟩ | hy
    · have e : F32.add y c = inf false := by simp only [F32.add, hn, hc]
      rw [e]; exact lt_inf_left val_inf
    · have e : F32.add y c = inf false := by simp only [F32.add, hy, hc, if_true]
      rw [e]; exact lt_inf_left val_inf

theorem NonNeg.eq_of_not_lt {x y : F32} (hx : NonNeg x) (hy : NonNeg y) (h1 : lt x y = false) (h2 : lt y x = false) :
    x = y := by
  rcases hx with ⟨m, hm⟩ | hx
  · rcases hy with ⟨n, hn⟩ | hy
    · rw [lt_fin hm hn] at h1
      rw [lt_fin hn hm] at h2
      have : m = n := by have := of_decide_eq_false h1; have := of_decide_eq_false h2; omega
      exact eq_of_val (by rw [hm, hn, this]) (NonNeg.notNan (.inl ⟨m, hm⟩))
    · rw [lt_fin_inf hm hy] at h1; cases h1
  · rcases hy with ⟨n, hn⟩ | hy
    · rw [lt_fin_inf hn hx] at h2; cases h2
    · exact eq_of_val (by rw [hx, hy]) (NonNeg.notNan (.inr hx))

end F32

/-! ## Sums of more of the same -/

/-- A score added to a sum that may not have begun. -/
def addTo : Option F32 → F32 → Option F32
  | none, c => some c
  | some s, c => some (F32.add s c)

/-- The first sum has not begun, or both have and the second is no smaller. -/
def SumLe : Option F32 → Option F32 → Prop
  | none, _ => True
  | some _, none => False
  | some x, some y => F32.lt y x = false

/-- The sum is not negative, if it has begun. -/
def SumOk (s : Option F32) : Prop := ∀ x, s = some x → F32.NonNeg x

theorem SumOk.addTo {s : Option F32} (h : SumOk s) {c : F32} (hc : F32.NonNeg c) : SumOk (addTo s c) := by
  intro x e
  cases s with
  | none => cases e; exact hc
  | some s => cases e; exact (h s rfl).add hc

theorem SumLe.addBoth {a b : Option F32} (ha : SumOk a) (hb : SumOk b) (h : SumLe a b) {c : F32} (hc : F32.NonNeg c) :
    SumLe (addTo a c) (addTo b c) := by
  cases a with
  | none =>
    cases b with
    | none => exact F32.lt_self hc
    | some y =>
      show F32.lt (F32.add y c) c = false
      rw [(hb y rfl).add_comm hc]
      exact hc.add_ge (hb y rfl)
  | some x =>
    cases b with
    | none => exact h.elim
    | some y => exact (ha x rfl).add_mono (hb y rfl) hc h

theorem SumLe.addRight {a b : Option F32} (ha : SumOk a) (hb : SumOk b) (h : SumLe a b) {c : F32} (hc : F32.NonNeg c) :
    SumLe a (addTo b c) := by
  cases a with
  | none => trivial
  | some x =>
    cases b with
    | none => exact h.elim
    | some y => exact F32.lt_false_trans (ha x rfl) (hb y rfl) ((hb y rfl).add hc) h ((hb y rfl).add_ge hc)

theorem SumLe.addMany {c : F32} (hc : F32.NonNeg c) : ∀ (i j : Nat) (a b : Option F32), i ≤ j → SumOk a → SumOk b →
    SumLe a b → SumOk ((List.replicate i c).foldl addTo a) ∧ SumOk ((List.replicate j c).foldl addTo b) ∧
      SumLe ((List.replicate i c).foldl addTo a) ((List.replicate j c).foldl addTo b)
  | 0, 0, _, _, _, ha, hb, h => ⟨ha, hb, h⟩
  | 0, j + 1, a, b, _, ha, hb, h =>
    SumLe.addMany hc 0 j a (addTo b c) (Nat.zero_le _) ha (hb.addTo hc) (h.addRight ha hb hc)
  | i + 1, j + 1, a, b, hij, ha, hb, h =>
    SumLe.addMany hc i j (addTo a c) (addTo b c) (Nat.le_of_succ_le_succ hij) (ha.addTo hc) (hb.addTo hc)
      (h.addBoth ha hb hc)

theorem foldl_addTo (l : List F32) (x : F32) : l.foldl addTo (some x) = some (l.foldl F32.add x) := by
  induction l generalizing x with
  | nil => rfl
  | cons y l ih => exact ih (F32.add x y)

/-! ## C107 -/

/-- Whatever a query finds in the texts with one id, the texts with another id contain at least as often. -/
def Covers (lower : Char → List Char) (n : Nat) (input : List RawProduct) (ix : GramIndex Char) (query : List Char)
    (id id' : Str) : Prop :=
  ∀ w ∈ paddedWindows n query, ∀ k conf, ix.searchGram n w = .ok (some (k, conf)) →
    occurrencesFor lower n input id k ≤ occurrencesFor lower n input id' k

/-- What covers what is found of another is found, with no smaller confidence: rounding never turns the order around,
however many scores are added. -/
theorem C107_dominates {t o lower parse n input ix cl} (h : Searchable t o lower parse n input ix cl) (o' : HashOrd)
    (query : List Char) (r : List (Product × F32)) (hr : ix.search o' n query = .ok r) (id id' : Str)
    (hcov : Covers lower n input ix query id id') (c : F32) (hc : (id, c) ∈ r.map (fun e => (e.1.id, e.2))) :
    ∃ c', (id', c') ∈ r.map (fun e => (e.1.id, e.2)) ∧ F32.lt c' c = false := by
  obtain ⟨x, xs, e, rfl⟩ := (C60 h.pos h.le h.built o' query r hr id c).1 hc
  have key : ∀ (ws : List (List Char)), (∀ w ∈ ws, w ∈ paddedWindows n query) → ∀ (a b : Option F32), SumOk a → SumOk b →
      SumLe a b →
      SumLe ((ws.flatMap fun w => windowScores t lower n input id (lookup ix n w)).foldl addTo a)
        ((ws.flatMap fun w => windowScores t lower n input id' (lookup ix n w)).foldl addTo b) := by
    intro ws
    induction ws with
    | nil => intro _ a b _ _ hab; exact hab
    | cons w ws ih =>
      intro hws a b ha hb hab
      rw [List.flatMap_cons, List.flatMap_cons, List.foldl_append, List.foldl_append]
      have step : SumOk ((windowScores t lower n input id (lookup ix n w)).foldl addTo a) ∧
          SumOk ((windowScores t lower n input id' (lookup ix n w)).foldl addTo b) ∧
          SumLe ((windowScores t lower n input id (lookup ix n w)).foldl addTo a)
            ((windowScores t lower n input id' (lookup ix n w)).foldl addTo b) := by
        obtain ⟨res, hres⟩ := C48_gram_total ix h.pos h.le w
        have hl : lookup ix n w = res := by unfold lookup; rw [hres]
        rw [hl]
        cases res with
        | none => exact ⟨ha, hb, hab⟩
        | some kc =>
          obtain ⟨k, conf⟩ := kc
          unfold windowScores
          by_cases hlt : occurrencesAll lower n input k < maximumProductAmount t input.length
          · simp only [hlt, if_true]
            exact SumLe.addMany (h.conf_unit hres).nonNeg _ _ a b (hcov w (hws w (by simp)) k conf hres) ha hb hab
          · simp only [hlt, if_false]
            exact ⟨ha, hb, hab⟩
      exact ih (fun v hv => hws v (by simp [hv])) _ _ step.1 step.2.1 step.2.2
  have hk := key (paddedWindows n query) (fun _ hw => hw) none none (fun _ e => nomatch e) (fun _ e => nomatch e) trivial
  rw [e, List.foldl_cons] at hk
  have e1 : xs.foldl addTo (addTo none x) = some (xs.foldl F32.add x) := foldl_addTo xs x
  rw [e1] at hk
  cases hys : (paddedWindows n query).flatMap fun w => windowScores t lower n input id' (lookup ix n w) with
  | nil => rw [hys] at hk; exact hk.elim
  | cons y ys =>
    rw [hys, List.foldl_cons] at hk
    have e2 : ys.foldl addTo (addTo none y) = some (ys.foldl F32.add y) := foldl_addTo ys y
    rw [e2] at hk
    exact ⟨_, (C60 h.pos h.le h.built o' query r hr id' _).2 ⟨y, ys, hys, rfl⟩, hk⟩

/-- Two ids whose texts contain the same of what is found have the very same confidence. -/
theorem C107_equal {t o lower parse n input ix cl} (h : Searchable t o lower parse n input ix cl) (o' : HashOrd)
    (query : List Char) (r : List (Product × F32)) (hr : ix.search o' n query = .ok r) (id id' : Str)
    (hcov : Covers lower n input ix query id id') (hcov' : Covers lower n input ix query id' id) (c : F32) :
    (id, c) ∈ r.map (fun e => (e.1.id, e.2)) ↔ (id', c) ∈ r.map (fun e => (e.1.id, e.2)) := by
  rw [C60 h.pos h.le h.built o' query r hr id c, C60 h.pos h.le h.built o' query r hr id' c]
  have : (paddedWindows n query).flatMap (fun w => windowScores t lower n input id (lookup ix n w)) =
      (paddedWindows n query).flatMap (fun w => windowScores t lower n input id' (lookup ix n w)) := by
    have : ∀ (ws : List (List Char)), (∀ w ∈ ws, w ∈ paddedWindows n query) →
        ws.flatMap (fun w => windowScores t lower n input id (lookup ix n w)) =
          ws.flatMap (fun w => windowScores t lower n input id' (lookup ix n w)) := by
      intro ws hws
      rw [List.flatMap_def, List.flatMap_def]
      congr 1
      apply List.map_congr_left
      intro w hw
      obtain ⟨res, hres⟩ := C48_gram_total ix h.pos h.le w
      have hl : lookup ix n w = res := by unfold lookup; rw [hres]
      rw [hl]
      cases res with
      | none => rfl
      | some kc =>
        obtain ⟨k, conf⟩ := kc
        have e := Nat.le_antisymm (hcov w (hws w hw) k conf hres) (hcov' w (hws w hw) k conf hres)
        simp only [windowScores, e]
    exact this _ fun _ hw => hw
  rw [this]

/-- Windows that do not begin with padding occur in a longer text at least as often. -/
theorem count_paddedWindows_infix {n : Nat} {l l' : List Char} (h : l <:+: l') (q : Char) (f : List Char)
    (hq : q ≠ dflt) : (paddedWindows n l).count (q :: f) ≤ (paddedWindows n l').count (q :: f) := by
  obtain ⟨pre, suf, rfl⟩ := h
  simp only [paddedWindows, List.count, List.countP_map]
  have e : (pre ++ l ++ suf).length = pre.length + (l.length + suf.length) := by simp only [List.length_append]; omega
  rw [e, List.range_add, List.countP_append, List.range_add (n := l.length), List.map_append, List.countP_append,
    List.countP_map]
  refine Nat.le_trans ?_ (Nat.le_trans (Nat.le_add_right _ _) (Nat.le_add_left _ _))
  apply List.countP_mono_left
  intro i hi hw
  rw [List.mem_range] at hi
  simp only [Function.comp_def, beq_iff_eq] at hw ⊢
  have hge : n - 1 ≤ i := by
    apply Nat.le_of_not_lt
    intro hlt
    have h0 := congrArg (fun l => l[0]?) hw
    simp only [List.getElem?_take, List.getElem?_drop, Nat.add_zero, List.getElem?_cons_zero] at h0
    rw [if_pos (by omega), List.getElem?_append_left (by simpa using hlt), List.getElem?_replicate, if_pos hlt] at h0
    exact hq (Option.some.inj h0).symm
  rw [List.drop_append, List.drop_eq_nil_of_le (by simpa using hge), List.nil_append, List.length_replicate] at hw
  rw [List.drop_append, List.drop_eq_nil_of_le (by simp only [List.length_replicate]; omega), List.nil_append,
    List.length_replicate, List.append_assoc]
  have e2 : pre.length + i - (n - 1) = pre.length + (i - (n - 1)) := by omega
  rw [e2, ← List.drop_drop, List.drop_left, List.drop_append_of_le_length (by omega)]
  have hfn : (l.drop (i - (n - 1))).take n = q :: f := hw
  have hn : n ≤ (l.drop (i - (n - 1))).length ∨ (l.drop (i - (n - 1))).length < n := by omega
  rcases hn with hn | hn
  · rw [List.take_append_of_le_length hn]; exact hfn
  · exfalso
    rw [List.length_drop] at hn
    omega

theorem sum_filter_single {α β : Type} [DecidableEq β] (f : α → β) (g : α → Nat) {x : α} : ∀ (l : List α), (l.map f).Nodup →
    x ∈ l → ((l.filter fun a => f a = f x).map g).sum = g x := by
  intro l
  induction l with
  | nil => intro _ h; cases h
  | cons a l ih =>
    intro hnd hx
    rw [List.map_cons, List.nodup_cons] at hnd
    rcases List.mem_cons.1 hx with rfl | hx
    · have : (l.filter fun a => f a = f x) = [] := by
        rw [List.filter_eq_nil_iff]
        intro b hb e
        exact hnd.1 (List.mem_map.2 ⟨b, hb, of_decide_eq_true e⟩)
      rw [List.filter_cons_of_pos (by simp), this]
      simp
    · have hne : f a ≠ f x := fun e => hnd.1 (e ▸ List.mem_map_of_mem hx)
      rw [List.filter_cons_of_neg (by simpa using hne)]
      exact ih hnd.2 hx

/-- A product whose text contains the whole text of another is found whenever the other is, and is not ranked lower:
if it is listed later after all, then both have the same confidence. -/
theorem C107_longer {t o lower parse n input ix cl} (h : Searchable t o lower parse n input ix cl)
    (hnul : NoNul lower input) (hid : (input.map (·.id)).Nodup) (o' : HashOrd)
    (query : List Char) (r : List (Product × F32)) (hr : ix.search o' n query = .ok r) (raw raw' : RawProduct)
    (hraw : raw ∈ input) (hraw' : raw' ∈ input) (hin : textOf lower raw <:+: textOf lower raw')
    (i : Nat) (p : Product) (c : F32) (hi : r[i]? = some (p, c)) (hp : p.id = raw.id) :
    ∃ (j : Nat) (p' : Product) (c' : F32), r[j]? = some (p', c') ∧ p'.id = raw'.id ∧ F32.lt c' c = false ∧
      (i < j → c' = c) := by
  have hcov : Covers lower n input ix query raw.id raw'.id := by
    intro w hw k conf hg
    obtain ⟨q, rest, seen, f, node, _, rfl, _, hhas, _⟩ := searchGram_sound h.pos h.le hg
    obtain ⟨_, other, hother, hocc⟩ := (C21_path_iff_substring h.pos h.built (q :: f) (by simp)).1 ⟨node, hhas⟩
    have hq : q ≠ dflt := by
      rintro rfl
      exact hnul other hother (hocc.subset (by simp [dflt]))
    unfold occurrencesFor
    rw [sum_filter_single (fun raw : RawProduct => raw.id) _ input hid hraw,
      sum_filter_single (fun raw : RawProduct => raw.id) _ input hid hraw']
    exact count_paddedWindows_infix hin q f hq
  obtain ⟨c', hc', hlt⟩ := C107_dominates h o' query r hr raw.id raw'.id hcov c
    (List.mem_map.2 ⟨(p, c), List.mem_of_getElem? hi, by rw [hp]⟩)
  obtain ⟨⟨p', c''⟩, hm, e⟩ := List.mem_map.1 hc'
  simp only [Prod.mk.injEq] at e
  obtain ⟨e1, rfl⟩ := e
  obtain ⟨j, hj⟩ := List.getElem?_of_mem hm
  refine ⟨j, p', c'', hj, e1, hlt, fun hij => ?_⟩
  obtain ⟨hi1, hi2⟩ := List.getElem?_eq_some_iff.1 hi
  obtain ⟨hj1, hj2⟩ := List.getElem?_eq_some_iff.1 hj
  have hsort := List.pairwise_iff_getElem.1 (C25_best_first h o' query r hr) i j hi1 hj1 hij
  rw [hi2, hj2] at hsort
  exact (h.result_nonNeg hr hm).eq_of_not_lt (h.result_nonNeg hr (List.mem_of_getElem? hi)) hlt hsort

/-! ## Containing what was searched for is not enough -/

/-- Seven products: the first has the title "kunsta", the second "kunst kunst kunst". -/
def ranked : List RawProduct :=
  [mkRaw [] "kunsta".toList ['1'], mkRaw [] "kunst kunst kunst".toList ['2'],
   mkRaw [] "brod".toList ['3'], mkRaw [] "vase".toList ['4'], mkRaw [] "lampe".toList ['5'],
   mkRaw [] "stol".toList ['6'], mkRaw [] "bord".toList ['7']]

set_option maxRecDepth 10000 in
/-- The title of the first product is what was searched for, letter by letter; the second does not contain it and is
listed before it, with a larger confidence. -/
theorem C107_false : ∃ (ix : GramIndex Char) (cl : Classic) (r : List (Product × F32)) (p p' : Product) (c c' : F32),
    Searchable .debug64 .ident (fun c => [c]) parseOne 5 ranked ix cl ∧
    ix.search .ident 5 "kunsta".toList = .ok r ∧ r = [(p', c'), (p, c)] ∧ F32.lt c c' = true ∧
    p.id = ['1'] ∧ p'.id = ['2'] ∧
    (∀ raw ∈ ranked, "kunsta".toList <:+: textOf (fun c => [c]) raw ↔ raw.id = ['1']) := by
  have h : runSearch .debug64 .ident 5 ranked "kunsta".toList = some [(['2'], ⟨1082130432⟩), (['1'], ⟨1065353216⟩)] := by
    decide +kernel
  obtain ⟨ix, cl, r, b, s, f⟩ := runSearch_sound h
  have hlt : F32.lt ⟨1065353216⟩ ⟨1082130432⟩ = true := by decide +kernel
  have hin : ∀ raw ∈ ranked, "kunsta".toList <:+: textOf (fun c => [c]) raw ↔ raw.id = ['1'] := by
    decide +kernel
  obtain ⟨⟨p', c'⟩, r', rfl, e1, f⟩ := List.map_eq_cons_iff.1 f
  obtain ⟨⟨p, c⟩, r'', rfl, e2, f⟩ := List.map_eq_cons_iff.1 f
  rw [List.map_eq_nil_iff] at f
  subst f
  simp only [Prod.mk.injEq] at e1 e2
  obtain ⟨e1, rfl⟩ := e1
  obtain ⟨e2, rfl⟩ := e2
  exact ⟨ix, cl, _, p, p', _, _, ⟨by omega, by omega, b, by decide +kernel⟩, s, rfl, hlt, e2, e1, hin⟩

/-- Three products, of which the second repeats the text of the first and adds to it. -/
def fuller : List RawProduct :=
  [mkRaw [] "kunst".toList ['1'], mkRaw [] "ny kunst".toList ['2'], mkRaw [] "vase".toList ['3'],
   mkRaw [] "lampe".toList ['4']]

set_option maxRecDepth 10000 in
/-- The first product is found. -/
theorem fuller_found : ∃ (ix : GramIndex Char) (cl : Classic) (r : List (Product × F32)) (i : Nat) (p : Product) (c : F32),
    Searchable .debug64 .ident (fun c => [c]) parseOne 5 fuller ix cl ∧
    ix.search .ident 5 "kunst".toList = .ok r ∧ r[i]? = some (p, c) ∧ p.id = ['1'] := by
  have h : ((runSearch .debug64 .ident 5 fuller "kunst".toList).map fun l => l.map (·.1)).map (·.contains ['1']) = some true := by
    decide +kernel
  obtain ⟨l', h, e⟩ := Option.map_eq_some_iff.1 h
  obtain ⟨l, hl, h⟩ := Option.map_eq_some_iff.1 h
  obtain ⟨ix, cl, r, b, s, f⟩ := runSearch_sound hl
  rw [← h, List.contains_iff_mem, ← f, List.map_map] at e
  obtain ⟨x, hx, e⟩ := List.mem_map.1 e
  obtain ⟨i, hi⟩ := List.getElem?_of_mem hx
  exact ⟨ix, cl, r, i, x.1, x.2, ⟨by omega, by omega, b, by decide +kernel⟩, s, hi, e⟩

/-- The hypotheses of `C107_longer` are met, so the second product is found as well. -/
example : ∃ (ix : GramIndex Char) (cl : Classic) (r : List (Product × F32)) (i : Nat) (p : Product) (c : F32),
    Searchable .debug64 .ident (fun c => [c]) parseOne 5 fuller ix cl ∧
    ix.search .ident 5 "kunst".toList = .ok r ∧ r[i]? = some (p, c) ∧ p.id = ['1'] ∧
    ∃ (j : Nat) (p' : Product) (c' : F32), r[j]? = some (p', c') ∧ p'.id = ['2'] ∧ F32.lt c' c = false ∧ (i < j → c' = c) := by
  obtain ⟨ix, cl, r, i, p, c, h, hs, hi, hp⟩ := fuller_found
  refine ⟨ix, cl, r, i, p, c, h, hs, hi, hp, ?_⟩
  exact C107_longer h (by unfold NoNul; decide +kernel) (by decide +kernel) .ident _ r hs (mkRaw [] "kunst".toList ['1'])
    (mkRaw [] "ny kunst".toList ['2']) (by simp [fuller]) (by simp [fuller]) (by decide +kernel) i p c hi hp

/-- The hypotheses of `C107_dominates` and `C107_equal` are met: every id covers itself. -/
example : ∃ ix cl r c, Searchable .debug64 .ident (fun c => [c]) parseOne 5 fuller ix cl ∧
    ix.search .ident 5 "kunst".toList = .ok r ∧ (['1'], c) ∈ r.map (fun e => (e.1.id, e.2)) ∧
    (∃ c', (['1'], c') ∈ r.map (fun e => (e.1.id, e.2)) ∧ F32.lt c' c = false) ∧
    ((['1'], c) ∈ r.map (fun e => (e.1.id, e.2)) ↔ (['1'], c) ∈ r.map (fun e => (e.1.id, e.2))) := by
  obtain ⟨ix, cl, r, i, p, c, h, hs, hi, hp⟩ := fuller_found
  have hm : (['1'], c) ∈ r.map (fun e => (e.1.id, e.2)) := List.mem_map.2 ⟨(p, c), List.mem_of_getElem? hi, by rw [hp]⟩
  have hcov : Covers (fun c => [c]) 5 fuller ix "kunst".toList ['1'] ['1'] := fun _ _ _ _ _ => Nat.le_refl _
  exact ⟨ix, cl, r, c, h, hs, hm, C107_dominates h .ident _ r hs _ _ hcov c hm, C107_equal h .ident _ r hs _ _ hcov hcov c⟩

end Idx
