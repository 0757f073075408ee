import Verif.Props.Suggest
import Verif.Props.Rank
import Verif.Props.Index
import Verif.Lemmas.Run
/-! # C112: what a tag suggestion depends on -/
namespace Idx

theorem not_above {a ov x : F32} (h : F32.lt a ov = true) (hx : F32.lt a x = true → F32.lt x ov = true) : F32.lt ov x = false := by
  cases hlt : F32.lt ov x with
  | false => rfl
  | true =>
    have h2 : F32.lt ov ov = true := F32.Val.lt_trans hlt (hx (F32.Val.lt_trans h hlt))
    rw [lt_self_false] at h2
    cases h2

/-- The suggestion is a best pair: above 0.8, and no pair is above it. -/
theorem suggest_best {tags : List Tag} {query : Str} {ov : F32} {id : Nat} {w : Str} (h : suggestLoop tags query = some (ov, id, w)) :
    (∃ t ∈ tags, t.id = id ∧ ov = overlap t.name w 3) ∧ w ∈ splitSpaces query ∧ F32.lt F32.zeroPointEight ov = true ∧
      ∀ t ∈ tags, ∀ v ∈ splitSpaces query, F32.lt ov (overlap t.name v 3) = false := by
  have hb := C40_float tags query
  rw [h] at hb
  obtain ⟨pre, t, post, hd, hid, hov, habove, hpre, hpost⟩ := hb
  have hm : (w, t) ∈ wordTagPairs tags query := by rw [hd]; simp
  obtain ⟨hw, ht⟩ := mem_wordTagPairs.1 hm
  refine ⟨⟨t, ht, hid, by rw [hov, similarity]⟩, hw, habove, fun t' ht' v hv => ?_⟩
  have hx : (v, t') ∈ wordTagPairs tags query := mem_wordTagPairs.2 ⟨hv, ht'⟩
  rw [hd] at hx
  have es : overlap t'.name v 3 = similarity (v, t') := by rw [similarity]
  rw [es]
  generalize F32.zeroPointEight = a at *
  rcases List.mem_append.1 hx with hx | hx
  · exact not_above habove (hpre (v, t') hx)
  · rcases List.mem_cons.1 hx with e | hx
    · rw [e, hov]
      exact lt_self_false
    · exact hpost _ hx

theorem suggest_none {tags : List Tag} {query : Str} :
    suggestLoop tags query = none ↔ ∀ t ∈ tags, ∀ v ∈ splitSpaces query, F32.lt F32.zeroPointEight (overlap t.name v 3) = false := by
  have hb := C40_float tags query
  constructor
  · intro h t ht v hv
    rw [h] at hb
    exact hb (v, t) (mem_wordTagPairs.2 ⟨hv, ht⟩)
  · intro h
    cases hl : suggestLoop tags query with
    | none => rfl
    | some l =>
      obtain ⟨ov, id, w⟩ := l
      obtain ⟨⟨t, ht, _, e⟩, hw, h8, _⟩ := suggest_best hl
      have := h t ht w hw
      rw [← e, h8] at this
      cases this

theorem nonNeg_of_above {x : F32} (h : F32.lt F32.zeroPointEight x = true) : F32.NonNeg x := by
  unfold F32.lt at h
  rw [F32.val_eighth] at h
  unfold F32.NonNeg
  generalize 13421773 * 2 ^ 125 = u at h
  cases hv : x.val with
  | nan => rw [hv] at h; cases h
  | inf s =>
    rw [hv] at h
    cases s with
    | false => exact .inr rfl
    | true => cases h
  | fin s m =>
    rw [hv] at h
    cases s with
    | false => exact .inl ⟨m, rfl⟩
    | true =>
      simp only [F32.Val.lt, if_true, decide_eq_true_eq] at h
      simp at h
      omega

/-- More words and more tags never lose a suggestion, nor make it less similar. -/
theorem C112_more {tags tags' : List Tag} {query query' : Str} (ht : ∀ t ∈ tags, t.name ∈ tags'.map (·.name))
    (hq : ∀ w ∈ splitSpaces query, w ∈ splitSpaces query') {ov : F32} {id : Nat} {w : Str}
    (h : suggestLoop tags query = some (ov, id, w)) :
    ∃ ov' id' w', suggestLoop tags' query' = some (ov', id', w') ∧ F32.lt ov' ov = false := by
  obtain ⟨⟨t, htt, _, e⟩, hw, h8, _⟩ := suggest_best h
  obtain ⟨t', ht', en⟩ := List.mem_map.1 (ht t htt)
  cases hl : suggestLoop tags' query' with
  | none =>
    have := suggest_none.1 hl t' ht' w (hq w hw)
    rw [en, ← e, h8] at this
    cases this
  | some l =>
    obtain ⟨ov', id', w'⟩ := l
    refine ⟨ov', id', w', rfl, ?_⟩
    have := (suggest_best hl).2.2.2 t' ht' w (hq w hw)
    rwa [en, ← e] at this

/-- The same words and the same names of tags, in whatever orders and however often: the same similarity, bit for bit, or
no suggestion on either side. -/
theorem C112_same {tags tags' : List Tag} {query query' : Str} (ht : ∀ name, name ∈ tags.map (·.name) ↔ name ∈ tags'.map (·.name))
    (hq : ∀ w, w ∈ splitSpaces query ↔ w ∈ splitSpaces query') :
    (suggestLoop tags query).map (·.1) = (suggestLoop tags' query').map (·.1) := by
  have h1 : ∀ t ∈ tags, t.name ∈ tags'.map (·.name) := fun t h => (ht _).1 (List.mem_map.2 ⟨t, h, rfl⟩)
  have h2 : ∀ t ∈ tags', t.name ∈ tags.map (·.name) := fun t h => (ht _).2 (List.mem_map.2 ⟨t, h, rfl⟩)
  cases hl : suggestLoop tags query with
  | none =>
    cases hl' : suggestLoop tags' query' with
    | none => rfl
    | some l' =>
      obtain ⟨_, _, _, e, _⟩ := C112_more h2 (fun w => (hq w).2) hl'
      rw [hl] at e
      cases e
  | some l =>
    obtain ⟨ov', id', w', e, hlt⟩ := C112_more h1 (fun w => (hq w).1) hl
    obtain ⟨ov, id, w, e', hlt'⟩ := C112_more h2 (fun w => (hq w).2) e
    rw [hl] at e'
    cases e'
    rw [e]
    simp only [Option.map_some]
    exact congrArg some ((nonNeg_of_above (suggest_best hl).2.2.1).eq_of_not_lt
      (nonNeg_of_above (suggest_best e).2.2.1) hlt' hlt)

/-- If moreover no other pair of a word and a name is as similar, it is the same word and a tag of the same name. -/
theorem C112_unique {tags tags' : List Tag} {query query' : Str} (ht : ∀ name, name ∈ tags.map (·.name) ↔ name ∈ tags'.map (·.name))
    (hq : ∀ w, w ∈ splitSpaces query ↔ w ∈ splitSpaces query') {ov : F32} {id : Nat} {w : Str}
    (h : suggestLoop tags query = some (ov, id, w)) (name : Str)
    (only : ∀ t ∈ tags, ∀ v ∈ splitSpaces query, overlap t.name v 3 = ov → t.name = name ∧ v = w) :
    ∃ id', suggestLoop tags' query' = some (ov, id', w) ∧ (∃ t ∈ tags, t.id = id ∧ t.name = name) ∧
      ∃ t ∈ tags', t.id = id' ∧ t.name = name := by
  have e := C112_same ht hq
  rw [h] at e
  cases hl : suggestLoop tags' query' with
  | none => rw [hl] at e; cases e
  | some l =>
    obtain ⟨ov', id', w'⟩ := l
    rw [hl] at e
    cases e
    obtain ⟨⟨t, htt, hid, et⟩, hw, _⟩ := suggest_best h
    obtain ⟨⟨t', htt', hid', et'⟩, hw', _⟩ := suggest_best hl
    obtain ⟨s, hs, es⟩ := List.mem_map.1 ((ht t'.name).2 (List.mem_map.2 ⟨t', htt', rfl⟩))
    have ho := only s hs w' ((hq w').2 hw') (by rw [es]; exact et'.symm)
    rw [ho.2]
    exact ⟨id', rfl, ⟨t, htt, hid, (only t htt w hw et.symm).1⟩, t', htt', hid', es.symm.trans ho.1⟩

/-- So two indexes of the same products, whatever the hash orders, the machines and the order of the products, suggest
with the same similarity. -/
theorem C112_built {t t' : Target} {o o' : HashOrd} {lower lower' parse parse' n n'} {input input' : List RawProduct} {ix ix' cl cl'}
    (hb : buildAll t o lower parse n input = .ok (ix, cl)) (hb' : buildAll t' o' lower' parse' n' input' = .ok (ix', cl'))
    (hperm : input.Perm input') (query : Str) :
    (suggestLoop cl.tags query).map (·.1) = (suggestLoop cl'.tags query).map (·.1) := by
  have names : ∀ {t : Target} {o lower parse n} {input : List RawProduct} {ix cl}, buildAll t o lower parse n input = .ok (ix, cl) →
      ∀ name, name ∈ cl.tags.map (·.name) ↔ ∃ raw ∈ input, name ∈ raw.tags := by
    intro t o lower parse n input ix cl h
    unfold buildAll at h
    obtain ⟨⟨c, cl'⟩, h1, h2⟩ := Res.bind_eq_ok.1 h
    simp only [Res.pure_eq, Res.ok.injEq, Prod.mk.injEq] at h2
    obtain ⟨_, rfl⟩ := h2
    exact (C18 h1).2.1
  refine C112_same (fun name => ?_) fun _ => Iff.rfl
  rw [names hb, names hb']
  exact ⟨fun ⟨r, h, e⟩ => ⟨r, hperm.mem_iff.1 h, e⟩, fun ⟨r, h, e⟩ => ⟨r, hperm.mem_iff.2 h, e⟩⟩

/-- As JavaScript sees it: on two engines with the same names of tags, one is given a suggestion iff the other is, and if
only one pair of a word and a name is most similar, both suggest the same word and a tag of the same name. -/
theorem C112_engine (e e' : Engine) (c c' : Classic) (hfree : e.classic.state = .free) (hfree' : e'.classic.state = .free)
    (hv : e.classic.value = some c) (hv' : e'.classic.value = some c') (hc : TagsNumbered c) (hc' : TagsNumbered c')
    (hn : ∀ name, name ∈ c.tags.map (·.name) ↔ name ∈ c'.tags.map (·.name)) (query query' : Str)
    (hq : ∀ w, w ∈ splitSpaces query ↔ w ∈ splitSpaces query') :
    ∃ r r', e.tagSuggestion query = .ok r ∧ e'.tagSuggestion query' = .ok r' ∧ (r = none ↔ r' = none) ∧
      ∀ s s', r = some s → r' = some s' → (∀ t ∈ c.tags, ∀ v ∈ splitSpaces query, ∀ t' ∈ c.tags, ∀ v' ∈ splitSpaces query,
          overlap t.name v 3 = overlap t'.name v' 3 → F32.lt F32.zeroPointEight (overlap t.name v 3) = true →
            t.name = t'.name ∧ v = v') →
        s.input = s'.input ∧ s.tag.getName = s'.tag.getName := by
  obtain ⟨r, h1, h2, h3⟩ := C40_engine e query c hfree hv hc
  obtain ⟨r', h1', h2', h3'⟩ := C40_engine e' query' c' hfree' hv' hc'
  have hsame := C112_same hn hq
  refine ⟨r, r', h1, h1', ?_, ?_⟩
  · rw [h2, h2', ← Option.map_eq_none_iff (f := (·.1)), hsame, Option.map_eq_none_iff]
  · intro s s' es es' only
    obtain ⟨_, tag, ov, ht, hname, _, hs⟩ := h3 s es
    obtain ⟨_, tag', ov', ht', hname', _, hs'⟩ := h3' s' es'
    have hi : ∀ t ∈ c.tags, ∀ u ∈ c.tags, t.id = u.id → t = u := by
      intro t ht u hu e
      obtain ⟨i, hi⟩ := List.mem_iff_getElem?.1 ht
      obtain ⟨j, hj⟩ := List.mem_iff_getElem?.1 hu
      rw [hc i t hi, hc j u hj] at e
      rw [e, hj] at hi
      exact (Option.some.inj hi).symm
    have hi' : ∀ t ∈ c'.tags, ∀ u ∈ c'.tags, t.id = u.id → t = u := by
      intro t ht u hu e
      obtain ⟨i, hi⟩ := List.mem_iff_getElem?.1 ht
      obtain ⟨j, hj⟩ := List.mem_iff_getElem?.1 hu
      rw [hc' i t hi, hc' j u hj] at e
      rw [e, hj] at hi
      exact (Option.some.inj hi).symm
    obtain ⟨⟨t, htt, hid, et⟩, hw, h8, _⟩ := suggest_best hs
    have ht_eq := hi t htt tag ht hid
    subst ht_eq
    obtain ⟨id', e2, _, t2, ht2, hid2, en2⟩ := C112_unique hn hq hs t.name fun u hu v hv ho => by
      have := only u hu v hv t htt s.input hw (ho.trans et) (by rw [ho]; exact h8)
      exact this
    rw [hs', Option.some.injEq, Prod.mk.injEq, Prod.mk.injEq] at e2
    have := hi' tag' ht' t2 ht2 (e2.2.1.trans hid2.symm)
    rw [hname, hname', this, en2]
    exact ⟨e2.2.2.symm, rfl⟩

/-- One product with the tags "abc" and "abcd". -/
def twoTags : List RawProduct := [{ mkRaw [] [] ['1'] with tags := [['a', 'b', 'c'], ['a', 'b', 'c', 'd']] }]

/-- The name of the tag suggested for "abc". -/
def suggestedName (o : HashOrd) : Option (Option Str) :=
  match optimize o parseOne twoTags with
  | .ok r => some ((suggestLoop r.2.tags ['a', 'b', 'c']).bind fun l => (r.2.tags[l.2.1]?).map (·.name))
  | _ => none

/-- With a tie the hash order of the build decides: "abc" is suggested the tag "abc" from one file and the tag "abcd"
from another file of the same catalogue. -/
theorem C112_false : ∃ c cl c' cl', optimize .ident parseOne twoTags = .ok (c, cl) ∧ optimize .rev parseOne twoTags = .ok (c', cl') ∧
    ((suggestLoop cl.tags ['a', 'b', 'c']).bind fun l => (cl.tags[l.2.1]?).map (·.name)) = some ['a', 'b', 'c'] ∧
    ((suggestLoop cl'.tags ['a', 'b', 'c']).bind fun l => (cl'.tags[l.2.1]?).map (·.name)) = some ['a', 'b', 'c', 'd'] := by
  have h : suggestedName .ident = some (some ['a', 'b', 'c']) := by decide +kernel
  have h' : suggestedName .rev = some (some ['a', 'b', 'c', 'd']) := by decide +kernel
  unfold suggestedName at h h'
  split at h
  · rename_i r hr
    split at h'
    · rename_i r' hr'
      exact ⟨r.1, r.2, r'.1, r'.2, hr, hr', Option.some.inj h, Option.some.inj h'⟩
    · cases h'
  · cases h

end Idx
