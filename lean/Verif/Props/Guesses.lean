import Verif.Props.Lookup
/-! # C96: which n-gram a lookup finds, for every N -/
namespace Idx

/-! ## Specification -/

/-- Spec: the next character meant, read off what was typed with `k` changes so far: it was typed, it was mistyped (or
nothing is left of what was typed), or it was left out; what is left of what was typed, and the changes then. -/
inductive Reading {G : Type} (limit : Nat) : List G → Nat → G → List G → Nat → Prop
  | right (c : G) (typed : List G) (k : Nat) : Reading limit (c :: typed) k c typed k
  | mistyped (c : G) (typed : List G) (k : Nat) : k < limit → typed.head? ≠ some c → Reading limit typed k c typed.tail (k + 1)
  | leftOut (c : G) (typed : List G) (k : Nat) : k < limit → typed.head? ≠ some c → Reading limit typed k c typed (k + 2)

/-- Spec: how a text of `n` characters that occurs is guessed from what was typed, and its confidence: the product of the
weights of the beginnings read. A character just read may turn out to be surplus: the next character typed takes its place, but
the weight stays the one of the surplus character. The Boolean says whether the last character of the text so far may still
be dropped. -/
inductive Guess {G : Type} (occurs : List G → Prop) (weight : List G → F32) (n limit : Nat) :
    List G → Nat → Bool → List G → F32 → List G × F32 → Prop
  | done {typed k may pre acc} : pre.length = n → Guess occurs weight n limit typed k may pre acc (pre, acc)
  | read {typed k may pre acc c typed' k' r} : pre.length < n → Reading limit typed k c typed' k' → occurs (pre ++ [c]) →
      Guess occurs weight n limit typed' k' true (pre ++ [c]) (F32.mul acc (weight (pre ++ [c]))) r →
      Guess occurs weight n limit typed k may pre acc r
  | surplus {typed k pre acc c g r} : (pre ++ [c]).length < n → k < limit → occurs (pre ++ [g]) →
      Guess occurs weight n limit typed (k + 1) false (pre ++ [g]) acc r →
      Guess occurs weight n limit (g :: typed) k true (pre ++ [c]) acc r

/-- Spec: of the places where a text without its last character occurs, the share at which that character follows. -/
def share (lower : Char → List Char) (input : List RawProduct) (u : List Char) : F32 :=
  F32.div (F32.ofNat (occurrencesIn u (input.map (textOf lower)))) (F32.ofNat (occurrencesIn u.dropLast (input.map (textOf lower))))

/-- Spec: the n-grams of the catalogue an n-gram can be taken for, with their confidences: the first character is right and
there are at most `n / 3` changes. -/
def Guesses (lower : Char → List Char) (input : List RawProduct) (n : Nat) (w : List Char) (r : List Char × F32) : Prop :=
  ∃ q rest, w = q :: rest ∧ Occurs lower input [q] ∧
    Guess (Occurs lower input) (share lower input) n (n / 3) rest 0 false [q] F32.one r

/-! ## Candidates of the recursion are guesses -/

section
variable {G : Type} [DecidableEq G] [RDefault G]

/-- The weight of the node at a path. -/
def GramIndex.weightAt (ix : GramIndex G) (u : List G) : F32 := ((ix.nodeAt u).map (·.weight)).getD F32.zero

/-- Where the recursion is, in terms of the text read so far. -/
structure At (ix : GramIndex G) (n : Nat) (node : GramNode G) (prev : Option (GramNode G)) (buf : List G) (index : Nat) (may : Bool)
    (pre : List G) : Prop where
  hne : pre ≠ []
  hnode : ix.nodeAt pre = some node
  hindex : pre.length = index
  hbuf : buf.length = n
  htake : buf.take index = pre
  hnoPrev : prev = none ↔ may = false
  hprev : ∀ p, prev = some p → ∃ pre' c, pre = pre' ++ [c] ∧ pre' ≠ [] ∧ ix.nodeAt pre' = some p

theorem At.step {ix : GramIndex G} {n : Nat} {node : GramNode G} {prev : Option (GramNode G)} {buf : List G} {index : Nat} {may : Bool}
    {pre : List G} (h : At ix n node prev buf index may pre) (hi : index < n) {c : GramNode G} (hc : AMap.get node.items c.item = some c) :
    At ix n c (some node) (buf.set index c.item) (index + 1) true (pre ++ [c.item]) where
  hne := by simp
  hnode := by rw [GramIndex.nodeAt_snoc _ _ h.hne, h.hnode]; exact hc
  hindex := by simp [h.hindex]
  hbuf := by simpa using h.hbuf
  htake := by rw [take_set_snoc _ (by rw [h.hbuf]; exact hi), h.htake]
  hnoPrev := by simp
  hprev := by rintro p ⟨⟩; exact ⟨pre, c.item, rfl, h.hne, h.hnode⟩

theorem At.drop {ix : GramIndex G} {n : Nat} {node p last : GramNode G} {buf : List G} {index : Nat} {may : Bool}
    {pre : List G} {c : G} (h : At ix n node (some p) buf index may (pre ++ [c])) (hp : pre ≠ []) (hn : ix.nodeAt pre = some p)
    (hl : AMap.get p.items last.item = some last) :
    At ix n last none (buf.set (index - 1) last.item) index false (pre ++ [last.item]) where
  hne := by simp
  hnode := by rw [GramIndex.nodeAt_snoc _ _ hp, hn]; exact hl
  hindex := by have := h.hindex; simp at this ⊢; exact this
  hbuf := by simpa using h.hbuf
  htake := by
    have hi := h.hindex
    have ht := h.htake
    have hlen : index ≤ buf.length := by
      have := congrArg List.length ht
      rw [List.length_take, hi] at this
      omega
    simp only [List.length_append, List.length_cons, List.length_nil] at hi
    have e : index = pre.length + 1 := by omega
    subst e
    rw [show pre.length + 1 - 1 = pre.length by omega, take_set_snoc _ (by omega)]
    have := congrArg (List.take pre.length) ht
    rw [List.take_take, Nat.min_eq_left (by omega)] at this
    rw [this]
    simp
  hnoPrev := by simp
  hprev := by simp

omit [RDefault G] in
theorem weightAt_of {ix : GramIndex G} {u : List G} {c : GramNode G} (h : ix.nodeAt u = some c) : ix.weightAt u = c.weight := by
  simp [GramIndex.weightAt, h]

theorem guess_of_cand {ix : GramIndex G} (hk : ix.Keyed) {n limit : Nat} {input : List G} {node : GramNode G}
    {prev : Option (GramNode G)} {changes : Nat} {weight : F32} {buf : List G} {index : Nat} {r : List G × F32}
    (h : Cand n limit input node prev changes weight buf index r) : ∀ {may : Bool} {pre : List G}, At ix n node prev buf index may pre →
    Guess (fun u => (ix.nodeAt u).isSome) ix.weightAt n limit input changes may pre weight r := by
  induction h with
  | @done input node prev changes weight buf index hi =>
    intro may pre ha
    have : buf = pre := by rw [← ha.htake, hi, ← ha.hbuf, List.take_length]
    rw [this]
    exact .done (ha.hindex.trans hi)
  | @follow g input node prev changes weight buf index u r hlt hget _ ih =>
    intro may pre ha
    have hu := (items_get_sound hget).2
    rw [← hu] at hget
    have hs := ha.step hlt hget
    refine .read (c := u.item) (typed' := input) (k' := changes) (by rw [ha.hindex]; exact hlt) ?_ (by rw [hs.hnode]; rfl) ?_
    · rw [hu]; exact .right _ _ _
    · rw [weightAt_of hs.hnode]; exact ih hs
  | @replace input node prev changes weight buf index c r hlt hch hc hne _ ih =>
    intro may pre ha
    have hget := (items_get_iff (hk.siblings _ _ ha.hnode)).2 ⟨hc, rfl⟩
    have hs := ha.step hlt hget
    refine .read (c := c.item) (by rw [ha.hindex]; exact hlt) (.mistyped _ _ _ hch fun e => hne ?_) (by rw [hs.hnode]; rfl) ?_
    · rw [e]; simp [hget]
    · rw [weightAt_of hs.hnode]; exact ih hs
  | @forgotten input node prev changes weight buf index c r hlt hch hc hne _ ih =>
    intro may pre ha
    have hget := (items_get_iff (hk.siblings _ _ ha.hnode)).2 ⟨hc, rfl⟩
    have hs := ha.step hlt hget
    refine .read (c := c.item) (by rw [ha.hindex]; exact hlt) (.leftOut _ _ _ hch fun e => hne ?_) (by rw [hs.hnode]; rfl) ?_
    · rw [e]; simp [hget]
    · rw [weightAt_of hs.hnode]; exact ih hs
  | @ignorePrevious g input node p changes weight buf index last r hlt hch hget _ ih =>
    intro may pre ha
    obtain ⟨pre', c, rfl, hp, hn⟩ := ha.hprev p rfl
    have hu := (items_get_sound hget).2
    subst hu
    have hd := ha.drop hp hn hget
    have hmay : may = true := by
      cases may with
      | false => have := ha.hnoPrev.2 rfl; cases this
      | true => rfl
    subst hmay
    exact .surplus (by rw [ha.hindex]; exact hlt) hch (by rw [hd.hnode]; rfl) (ih hd)

theorem cand_of_guess {ix : GramIndex G} {n limit : Nat} {typed : List G} {k : Nat} {may : Bool} {pre : List G}
    {acc : F32} {r : List G × F32} (h : Guess (fun u => (ix.nodeAt u).isSome) ix.weightAt n limit typed k may pre acc r) :
    ∀ {node : GramNode G} {prev : Option (GramNode G)} {buf : List G} {index : Nat}, At ix n node prev buf index may pre →
    Cand n limit typed node prev k acc buf index r := by
  induction h with
  | @done typed k may pre acc hl =>
    intro node prev buf index ha
    have hi := ha.hindex
    have : buf = pre := by rw [← ha.htake, ← hi, hl, ← ha.hbuf, List.take_length]
    rw [← this]
    exact .done (by omega)
  | @read typed k may pre acc c typed' k' r hlt hr ho _ ih =>
    intro node prev buf index ha
    have hi : index < n := by rw [← ha.hindex]; exact hlt
    obtain ⟨u, hu⟩ := Option.isSome_iff_exists.1 ho
    have hget := hu
    rw [GramIndex.nodeAt_snoc _ _ ha.hne, ha.hnode] at hget
    have hget : AMap.get node.items c = some u := hget
    obtain ⟨hm, hitem⟩ := items_get_sound hget
    subst hitem
    have hs := ha.step hi hget
    have ih := ih hs
    rw [weightAt_of hu] at ih
    have hne : ∀ {typed : List G}, typed.head? ≠ some u.item →
        some u.item ≠ (typed.head?.bind fun g => AMap.get node.items g).map (·.item) := by
      intro typed h1
      cases typed with
      | nil => simp
      | cons x rest =>
        exact entered_ne (fun e => h1 (by rw [e]; rfl)) rest
    cases hr with
    | right => exact .follow hi hget ih
    | mistyped _ _ _ h1 h2 => exact .replace hi h1 hm (hne h2) ih
    | leftOut _ _ _ h1 h2 => exact .forgotten hi h1 hm (hne h2) ih
  | @surplus typed k pre acc c g r hlt hk' ho _ ih =>
    intro node prev buf index ha
    have hi : index < n := by rw [← ha.hindex]; exact hlt
    cases prev with
    | none => have := ha.hnoPrev.1 rfl; cases this
    | some p =>
      obtain ⟨pre', c', he, hp, hn⟩ := ha.hprev p rfl
      obtain ⟨rfl, he⟩ := List.append_inj' he rfl
      obtain ⟨u, hu⟩ := Option.isSome_iff_exists.1 ho
      rw [GramIndex.nodeAt_snoc _ _ hp, hn] at hu
      have hget : AMap.get p.items g = some u := hu
      have hitem := (items_get_sound hget).2
      subst hitem
      exact .ignorePrevious hi hk' hget (ih (ha.drop hp hn hget))

omit [DecidableEq G] [RDefault G] in
theorem Guess.congr {occurs occurs' : List G → Prop} {weight weight' : List G → F32} {n limit : Nat}
    (h : ∀ u, u ≠ [] → u.length ≤ n → occurs u → occurs' u ∧ (2 ≤ u.length → weight u = weight' u))
    {typed : List G} {k : Nat} {may : Bool} {pre : List G} {acc : F32} {r : List G × F32}
    (hg : Guess occurs weight n limit typed k may pre acc r) : pre ≠ [] → Guess occurs' weight' n limit typed k may pre acc r := by
  induction hg with
  | done hl => exact fun _ => .done hl
  | @read typed k may pre acc c typed' k' r hlt hr ho _ ih =>
    intro hp
    have hp' := List.length_pos_iff.2 hp
    obtain ⟨h1, h2⟩ := h (pre ++ [c]) (by simp) (by simp; omega) ho
    have h2 := h2 (by simp; omega)
    refine .read hlt hr h1 ?_
    rw [← h2]
    exact ih (by simp)
  | @surplus typed k pre acc c g r hlt hk ho _ ih =>
    intro hp
    simp only [List.length_append, List.length_cons, List.length_nil] at hlt
    exact .surplus (by simpa using hlt) hk (h (pre ++ [g]) (by simp) (by simp; omega) ho).1 (ih (by simp))

end

/-! ## The lookup -/

theorem weightAt_share {t o lower parse n input ix cl} (h : Searchable t o lower parse n input ix cl) {u : List Char} (h2 : 2 ≤ u.length)
    {c : GramNode Char} (hc : ix.nodeAt u = some c) : ix.weightAt u = share lower input u := by
  have hk : ix.Keyed := by rw [(builtAll_of_ok h.built).index]; exact indexFrom_keyed t o h.pos _ _
  rw [weightAt_of hc, (C21_weight h.pos h.built u c ((hk.has_iff _ _).2 hc)).2]
  unfold parentCount share
  rw [if_neg (by omega)]

theorem guess_iff {t o lower parse n input ix cl} (h : Searchable t o lower parse n input ix cl) {typed pre : List Char} {k : Nat} {may : Bool}
    {acc : F32} {r : List Char × F32} (hp : pre ≠ []) :
    Guess (fun u => (ix.nodeAt u).isSome) ix.weightAt n (n / 3) typed k may pre acc r ↔
      Guess (Occurs lower input) (share lower input) n (n / 3) typed k may pre acc r := by
  have hk : ix.Keyed := by rw [(builtAll_of_ok h.built).index]; exact indexFrom_keyed t o h.pos _ _
  constructor
  · refine fun hg => hg.congr (fun u hu hl ho => ?_) hp
    obtain ⟨c, hc⟩ := Option.isSome_iff_exists.1 ho
    exact ⟨((C21_path_iff_substring h.pos h.built u hu).1 ⟨c, (hk.has_iff _ _).2 hc⟩).2, fun h2 => weightAt_share h h2 hc⟩
  · refine fun hg => hg.congr (fun u hu hl ho => ?_) hp
    obtain ⟨c, hc⟩ := (C21_path_iff_substring h.pos h.built u hu).2 ⟨hl, ho⟩
    have hc := (hk.has_iff _ _).1 hc
    exact ⟨by rw [hc]; rfl, fun h2 => (weightAt_share h h2 hc).symm⟩

theorem cands_iff_guesses {t o lower parse n input ix cl} (h : Searchable t o lower parse n input ix cl) (w : List Char) (r : List Char × F32) :
    (∃ q rest root, w = q :: rest ∧ AMap.get ix.roots q = some root ∧
      Cand n (n / 3) rest root none 0 F32.one ((List.replicate n dflt).set 0 q) 1 r) ↔ Guesses lower input n w r := by
  have hk : ix.Keyed := by rw [(builtAll_of_ok h.built).index]; exact indexFrom_keyed t o h.pos _ _
  have hpos := h.pos
  have start : ∀ {q : Char} {root : GramNode Char}, AMap.get ix.roots q = some root →
      At ix n root none ((List.replicate n dflt).set 0 q) 1 false [q] := by
    intro q root hr
    refine ⟨by simp, by rw [nodeAt_single]; exact hr, rfl, by simp, ?_, by simp, by simp⟩
    cases n with
    | zero => omega
    | succ n => simp [List.replicate_succ]
  constructor
  · rintro ⟨q, rest, root, rfl, hr, hc⟩
    have hroot : ix.nodeAt [q] = some root := by rw [nodeAt_single]; exact hr
    exact ⟨q, rest, rfl, ((C21_path_iff_substring h.pos h.built [q] (by simp)).1 ⟨root, (hk.has_iff _ _).2 hroot⟩).2,
      (guess_iff h (by simp)).1 (guess_of_cand hk hc (start hr))⟩
  · rintro ⟨q, rest, rfl, ho, hg⟩
    obtain ⟨root, hroot⟩ := (C21_path_iff_substring h.pos h.built [q] (by simp)).2 ⟨by simpa using hpos, ho⟩
    have hr := (hk.has_iff _ _).1 hroot
    rw [nodeAt_single] at hr
    exact ⟨q, rest, root, rfl, hr, cand_of_guess ((guess_iff h (by simp)).2 hg) (start hr)⟩

/-- Which n-gram a lookup finds, for every N the crate compiles for: one of the guesses, and none has a higher confidence;
nothing exactly if there is none. -/
theorem C96_lookup {t o lower parse n input ix cl} (h : Searchable t o lower parse n input ix cl) (w : List Char) :
    (ix.searchGram n w = .ok none ∧ ∀ r, ¬ Guesses lower input n w r) ∨
    ∃ r, ix.searchGram n w = .ok (some r) ∧ Guesses lower input n w r ∧ ∀ r', Guesses lower input n w r' → F32.lt r.2 r'.2 = false := by
  obtain ⟨res, e, hb⟩ := searchGram_best ix h.pos h.le w
  have hunit : ∀ r, (∃ q rest root, w = q :: rest ∧ AMap.get ix.roots q = some root ∧
      Cand n (n / 3) rest root none 0 F32.one ((List.replicate n dflt).set 0 q) 1 r) → ¬ r.2.IsNan := by
    rintro r ⟨q, rest, root, rfl, hr, hc⟩
    exact (hc.weight (ix := ix) (fun _ x => F32.Unit x) (fun i x path c _ _ hx hh => hx.mul (h.unit path c hh).unit) _
      (.root (AMap.mem_of_get hr)) (by simp) (Nat.le_refl _) F32.inUnit_one.unit).notNan
  cases res with
  | none =>
    refine .inl ⟨e, fun r hr => ?_⟩
    obtain ⟨_, hn⟩ := hb.answered _ ((cands_iff_guesses h w r).2 hr)
    cases hn
  | some r =>
    exact .inr ⟨r, e, (cands_iff_guesses h w r).1 (hb.mem r rfl), fun r' hr' => hb.best hunit _ ((cands_iff_guesses h w r').2 hr') _ rfl⟩

/-- For N from 3 to 5 the guesses are the n-grams of C83. -/
theorem C96_small {t o lower parse n input ix cl} (h : Searchable t o lower parse n input ix cl) (h3 : 3 ≤ n) (h5 : n ≤ 5)
    (w : List Char) (hl : w.length = n) (r : List Char × F32) :
    Guesses lower input n w r ↔ Resembles w r.1 ∧ Occurs lower input r.1 ∧ r.2 = exactConfidence lower input r.1 := by
  rw [← cands_iff_guesses h, ← cands_iff_resembles h w hl, show n / 3 = 1 by omega]

/-- For N up to 2 there is only the n-gram itself. -/
theorem C96_exact {t o lower parse n input ix cl} (h : Searchable t o lower parse n input ix cl) (h2 : n ≤ 2)
    (w : List Char) (hl : w.length = n) (r : List Char × F32) :
    Guesses lower input n w r ↔ Occurs lower input w ∧ r = (w, exactConfidence lower input w) := by
  have hpos := h.pos
  have hk : ix.Keyed := by rw [(builtAll_of_ok h.built).index]; exact indexFrom_keyed t o h.pos _ _
  have htake : ∀ q : Char, ((List.replicate n dflt).set 0 q).take 1 = [q] := by
    intro q
    cases n with
    | zero => omega
    | succ n => simp [List.replicate_succ]
  rw [← cands_iff_guesses h, show n / 3 = 0 by omega]
  constructor
  · rintro ⟨q, rest, root, rfl, hr, hc⟩
    obtain ⟨_, _, e1, e2⟩ := hc.straight (Nat.le_refl _) (by simp)
    simp only [List.length_cons] at hl
    rw [List.take_of_length_le (l := rest) (by omega)] at e1 e2
    rw [htake] at e1
    obtain ⟨h3, h4⟩ := confidence_eq h (by rw [nodeAt_single]; exact hr) e2
    exact ⟨h3, by rw [← h4]; exact Prod.ext e1 rfl⟩
  · rintro ⟨⟨raw, hraw, hin⟩, rfl⟩
    cases w with
    | nil => simp at hl; omega
    | cons q rest =>
      simp only [List.length_cons] at hl
      have hlast := (C21_path_iff_substring h.pos h.built (q :: rest) (by simp)).2
        ⟨by simp only [List.length_cons]; omega, raw, hraw, hin⟩
      obtain ⟨root, hroot⟩ := (C21_path_iff_substring h.pos h.built [q] (by simp)).2
        ⟨by simp; omega, raw, hraw, List.IsInfix.trans ⟨[], rest, by simp⟩ hin⟩
      have hp := pathWeight_exact h rest [q] root F32.one (by simp) hroot hlast
      have hget := (hk.has_iff _ _).1 hroot
      rw [nodeAt_single] at hget
      refine ⟨q, rest, root, rfl, hget, ?_⟩
      have := Cand.exact (n := n) (limit := 0) (prev := none) (changes := 0) (index := 1) (buf := (List.replicate n dflt).set 0 q)
        rest hp (by omega) (by simp)
      rw [htake] at this
      exact this

theorem Guess.result {G : Type} {occurs : List G → Prop} {weight : List G → F32} {n limit : Nat} {typed : List G} {k : Nat} {may : Bool}
    {pre : List G} {acc : F32} {r : List G × F32} (h : Guess occurs weight n limit typed k may pre acc r) (hp : occurs pre) :
    occurs r.1 ∧ r.1.length = n := by
  induction h with
  | done hl => exact ⟨hp, hl⟩
  | read _ _ ho _ ih => exact ih ho
  | surplus _ _ ho _ ih => exact ih ho

/-- A guess is an n-gram of the catalogue. -/
theorem C96_occurs {lower : Char → List Char} {input : List RawProduct} {n : Nat} {w : List Char} {r : List Char × F32}
    (h : Guesses lower input n w r) : Occurs lower input r.1 ∧ r.1.length = n := by
  obtain ⟨q, rest, rfl, ho, hg⟩ := h
  exact hg.result ho

/-! ## What follows for searches -/

/-- Spec: a guess than which none has a higher confidence. -/
def BestGuess (lower : Char → List Char) (input : List RawProduct) (n : Nat) (w : List Char) (r : List Char × F32) : Prop :=
  Guesses lower input n w r ∧ ∀ r', Guesses lower input n w r' → F32.lt r.2 r'.2 = false

/-- Spec: no window of the query has best guesses at two n-grams. -/
def OneBest (lower : Char → List Char) (n : Nat) (input : List RawProduct) (query : List Char) : Prop :=
  ∀ w ∈ paddedWindows n query, ∀ r r', BestGuess lower input n w r → BestGuess lower input n w r' → r.1 = r'.1

theorem guess_unit {t o lower parse n input ix cl} (h : Searchable t o lower parse n input ix cl) {w : List Char} {r : List Char × F32}
    (hr : Guesses lower input n w r) : F32.Unit r.2 := by
  obtain ⟨q, rest, root, rfl, hr, hc⟩ := (cands_iff_guesses h w r).2 hr
  exact hc.weight (ix := ix) (fun _ x => F32.Unit x) (fun i x path c _ _ hx hh => hx.mul (h.unit path c hh).unit) _
    (.root (AMap.mem_of_get hr)) (by simp) (Nat.le_refl _) F32.inUnit_one.unit

theorem lookup_bestGuess {t o lower parse n input ix cl} (h : Searchable t o lower parse n input ix cl)
    {query w : List Char} (hn : OneBest lower n input query) (hw : w ∈ paddedWindows n query) (r : List Char × F32) :
    ix.searchGram n w = .ok (some r) ↔ BestGuess lower input n w r := by
  rcases C96_lookup h w with ⟨hg, hno⟩ | ⟨f, hg, h1, h2⟩
  · rw [hg]
    constructor
    · intro h; cases h
    · rintro ⟨a, _⟩; exact absurd a (hno _)
  · rw [hg]
    constructor
    · intro h; cases h; exact ⟨h1, h2⟩
    · intro hb
      have e1 := hn w hw f r ⟨h1, h2⟩ hb
      have e2 := (guess_unit h h1).eq_of_not_lt (guess_unit h hb.1) (h2 r hb.1) (hb.2 f h1)
      rw [Prod.ext e1 e2]

/-- Exactly which ids a search returns, for every N, in terms of the catalogue alone: those of the products whose text has a
window that is the best guess for a window of the query and is not too common. -/
theorem C96_found {t o lower parse n input ix cl} (h : Searchable t o lower parse n input ix cl)
    (o' : HashOrd) (query : List Char) (hn : OneBest lower n input query) (results : List (Product × F32))
    (hs : ix.search o' n query = .ok results) (id : Str) :
    (∃ p c, (p, c) ∈ results ∧ p.id = id) ↔
      ∃ w ∈ paddedWindows n query, ∃ r, BestGuess lower input n w r ∧
        (input.map fun raw => (paddedWindows n (textOf lower raw)).count r.1).sum < maximumProductAmount t input.length ∧
        ∃ raw ∈ input, raw.id = id ∧ r.1 ∈ paddedWindows n (textOf lower raw) := by
  rw [C54_found_iff h.pos h.le h.built o' query results hs]
  have hlen : ∀ k, (expectedPostings lower n ix.container.products input k).length =
      (input.map fun raw => (paddedWindows n (textOf lower raw)).count k).sum := by
    intro k
    have := congrArg List.length (expected_ids h.built k)
    simp only [List.length_map, List.length_flatMap, List.length_replicate, List.map_map] at this
    rw [this]
    rfl
  obtain ⟨prices, b⟩ := (builtAll_of_ok h.built).built
  constructor
  · rintro ⟨w, hw, found, conf, hg, hk, p, raw, _, hr, hid, _, hf⟩
    exact ⟨w, hw, (found, conf), (lookup_bestGuess h hn hw _).1 hg, by rw [← hlen]; exact hk, raw, List.mem_of_getElem? hr, hid, hf⟩
  · rintro ⟨w, hw, r, hb, hk, raw, hr, hid, hf⟩
    obtain ⟨i, hi⟩ := List.mem_iff_getElem?.1 hr
    have hp := b.getElem? i
    rw [hi] at hp
    simp only [Option.map_some] at hp
    exact ⟨w, hw, r.1, r.2, (lookup_bestGuess h hn hw _).2 hb, by rw [hlen]; exact hk,
      productOf ix.container.vendors raw i, raw, hp, hi, hid, hid, hf⟩

theorem SameTexts.guesses {t o₁ o₂ lower parse n input₁ input₂ ix₁ ix₂ cl₁ cl₂}
    (h : SameTexts t o₁ o₂ lower parse n input₁ input₂ ix₁ ix₂ cl₁ cl₂) {w : List Char} {r : List Char × F32}
    (hg : Guesses lower input₁ n w r) : Guesses lower input₂ n w r := by
  obtain ⟨q, rest, rfl, ho, hg⟩ := hg
  refine ⟨q, rest, rfl, h.occurs ho, hg.congr (fun u _ _ hu => ⟨h.occurs hu, fun _ => ?_⟩) (by simp)⟩
  unfold share
  rw [occurrencesIn_perm _ h.texts, occurrencesIn_perm _ h.texts]

/-- Where every window has one best guess the results depend neither on the order of the catalogue nor on hash tables. -/
theorem C96_deterministic {t o₁ o₂ lower parse n input₁ input₂ ix₁ ix₂ cl₁ cl₂}
    (h : SameTexts t o₁ o₂ lower parse n input₁ input₂ ix₁ ix₂ cl₁ cl₂) (query : List Char)
    (hn : OneBest lower n input₁ query) (o o' : HashOrd) (r₁ r₂ : List (Product × F32))
    (h₁ : ix₁.search o n query = .ok r₁) (h₂ : ix₂.search o' n query = .ok r₂) :
    (r₁.map fun e => (e.1.id, e.2)).Perm (r₂.map fun e => (e.1.id, e.2)) := by
  refine C58_results h query (fun w hw => ?_) o o' r₁ r₂ h₁ h₂
  rcases C96_lookup h.two w with ⟨hg, hno⟩ | ⟨f, hg, h1, h2⟩
  · rcases C96_lookup h.one w with ⟨hg', _⟩ | ⟨f', _, h1', _⟩
    · rw [hg, hg']
    · exact absurd (h.guesses h1') (hno f')
  · rw [hg]
    exact (lookup_bestGuess h.one hn hw f).2 ⟨h.symm.guesses h1, fun r' hr' => h2 r' (h.guesses hr')⟩

/-- For N from 3 to 5 it is enough that no window has two best matches. -/
theorem oneBest_of_noTies {t o lower parse n input ix cl} (h : Searchable t o lower parse n input ix cl) (h3 : 3 ≤ n) (h5 : n ≤ 5)
    {query : List Char} (hn : NoTies lower n input query) : OneBest lower n input query := by
  intro w hw r r' hr hr'
  have hl := paddedWindows_length h.pos hw
  have best : ∀ r, BestGuess lower input n w r → BestMatch lower input w r.1 := by
    rintro r ⟨h1, h2⟩
    obtain ⟨a, b, c⟩ := (C96_small h h3 h5 w hl r).1 h1
    refine ⟨a, b, fun v' hv' ho' => ?_⟩
    rw [← c]
    exact h2 (v', exactConfidence lower input v') ((C96_small h h3 h5 w hl _).2 ⟨hv', ho', rfl⟩)
  exact hn w hw _ _ (best r hr) (best r' hr')

/-! ## A surplus character lends its weight -/

/-- Texts "ax", "ax", "ax", "abcdef". -/
def lent : List RawProduct := [mkRaw ['a', 'x'] [] ['1'], mkRaw ['a', 'x'] [] ['2'], mkRaw ['a', 'x'] [] ['3'],
  mkRaw ['a', 'b', 'c', 'd', 'e', 'f'] [] ['4']]

def lentShape : Option Bool :=
  (runBuild .debug64 .ident parseOne 6 lent).map fun r =>
    match r.1.searchGramF 6 "axbcde".toList with
    | .ok (some (v, c)) => v == "abcdef".toList && F32.lt (exactConfidence (fun c => [c]) lent "abcdef".toList) c
    | _ => false

set_option maxRecDepth 20000 in
/-- With N = 6 "axbcde" is taken for "abcdef" with a higher confidence than "abcdef" has itself: the surplus "x" is the
likeliest character after "a". -/
theorem C96_lent : ∃ ix cl c, Searchable .debug64 .ident (fun c => [c]) parseOne 6 lent ix cl ∧
    ix.searchGram 6 "axbcde".toList = .ok (some ("abcdef".toList, c)) ∧
    F32.lt (exactConfidence (fun c => [c]) lent "abcdef".toList) c = true := by
  have h : lentShape = some true := by decide +kernel
  unfold lentShape at h
  obtain ⟨⟨ix, cl⟩, h1, h2⟩ := Option.map_eq_some_iff.1 h
  rw [searchGramF_eq] at h2
  split at h2
  · rename_i v c hg
    simp only [Bool.and_eq_true, beq_iff_eq] at h2
    obtain ⟨rfl, h3⟩ := h2
    exact ⟨ix, cl, c, ⟨by decide, by decide, runBuild_sound h1, by decide +kernel⟩, hg, h3⟩
  · cases h2

theorem lent_occurs {v : List Char} (hl : v.length = 6) (h : Occurs (fun c => [c]) lent v) : v = ['a', 'b', 'c', 'd', 'e', 'f'] := by
  obtain ⟨raw, hr, hi⟩ := h
  have short : ∀ text : List Char, v <:+: text → text.length < 6 → False := fun text h1 h2 => by
    have := h1.length_le
    omega
  simp only [lent, List.mem_cons, List.not_mem_nil, or_false] at hr
  rcases hr with rfl | rfl | rfl | rfl
  · exact (short _ hi (by decide)).elim
  · exact (short _ hi (by decide)).elim
  · exact (short _ hi (by decide)).elim
  · have e : textOf (fun c => [c]) (mkRaw ['a', 'b', 'c', 'd', 'e', 'f'] [] ['4']) = ['a', 'b', 'c', 'd', 'e', 'f'] := by decide
    rw [e] at hi
    exact hi.eq_of_length hl

theorem lent_oneBest (query : List Char) : OneBest (fun c => [c]) 6 lent query := fun _ _ _ _ h h' => by
  obtain ⟨a, b⟩ := C96_occurs h.1
  obtain ⟨c, d⟩ := C96_occurs h'.1
  rw [lent_occurs b a, lent_occurs d c]

theorem lent_searchable (o : HashOrd) (input : List RawProduct) (hi : input = lent ∨ input = lent.reverse) (n : Nat) (h0 : 1 ≤ n) (hn : n ≤ 764) :
    ∃ ix cl, Searchable .debug64 o (fun c => [c]) parseOne n input ix cl := by
  obtain ⟨ix, cl, hb⟩ := buildAll_ok .debug64 o (fun c => [c]) parseOne n input (List.replicate 4 F32.one) (by rcases hi with rfl | rfl <;> rfl)
  exact ⟨ix, cl, h0, hn, hb, by rcases hi with rfl | rfl <;> decide⟩

/-- The hypotheses of `C96_lookup`, `C96_found` and `C96_deterministic` are met with N = 6 by this catalogue, in either order. -/
example (query : List Char) (o o' : HashOrd) : ∃ ix₁ cl₁ ix₂ cl₂ r₁ r₂,
    SameTexts .debug64 .ident .rev (fun c => [c]) parseOne 6 lent lent.reverse ix₁ ix₂ cl₁ cl₂ ∧
    ix₁.search o 6 query = .ok r₁ ∧ ix₂.search o' 6 query = .ok r₂ ∧
    (r₁.map fun e => (e.1.id, e.2)).Perm (r₂.map fun e => (e.1.id, e.2)) ∧
    ((∃ p c, (p, c) ∈ r₁ ∧ p.id = ['4']) ↔ ∃ w ∈ paddedWindows 6 query, ∃ r, BestGuess (fun c => [c]) lent 6 w r ∧
        (lent.map fun raw => (paddedWindows 6 (textOf (fun c => [c]) raw)).count r.1).sum < maximumProductAmount .debug64 lent.length ∧
        ∃ raw ∈ lent, raw.id = ['4'] ∧ r.1 ∈ paddedWindows 6 (textOf (fun c => [c]) raw)) := by
  obtain ⟨ix₁, cl₁, h₁⟩ := lent_searchable .ident lent (.inl rfl) 6 (by decide) (by decide)
  obtain ⟨ix₂, cl₂, h₂⟩ := lent_searchable .rev lent.reverse (.inr rfl) 6 (by decide) (by decide)
  have same : SameTexts .debug64 .ident .rev (fun c => [c]) parseOne 6 lent lent.reverse ix₁ ix₂ cl₁ cl₂ :=
    ⟨(List.reverse_perm lent).symm.map _, h₁, h₂⟩
  obtain ⟨r₁, s₁⟩ := C48_search_total o ix₁ h₁.pos h₁.le query
  obtain ⟨r₂, s₂⟩ := C48_search_total o' ix₂ h₂.pos h₂.le query
  exact ⟨ix₁, cl₁, ix₂, cl₂, r₁, r₂, same, s₁, s₂, C96_deterministic same query (lent_oneBest query) o o' r₁ r₂ s₁ s₂,
    C96_found h₁ o query (lent_oneBest query) r₁ s₁ ['4']⟩

/-- The guess made of "axbcde" in this catalogue: after "a" and "x", the "x" turns out to be surplus, and at the end the "f" was
left out, with nothing typed left. -/
example : ∃ c, Guesses (fun c => [c]) lent 6 "axbcde".toList ("abcdef".toList, c) := by
  have occ : ∀ v : List Char, v <:+: ['a', 'b', 'c', 'd', 'e', 'f'] → Occurs (fun c => [c]) lent v := fun v hv =>
    ⟨mkRaw ['a', 'b', 'c', 'd', 'e', 'f'] [] ['4'], by simp [lent], hv⟩
  have ax : Occurs (fun c => [c]) lent ['a', 'x'] := ⟨mkRaw ['a', 'x'] [] ['1'], by simp [lent], ⟨[], [], rfl⟩⟩
  have hl : "abcdef".toList.length = 6 := rfl
  exact ⟨_, 'a', ['x', 'b', 'c', 'd', 'e'], rfl, occ _ ⟨[], _, rfl⟩,
    .read (by decide) (.right 'x' _ 0) ax <|
    .surplus (pre := ['a']) (c := 'x') (by decide) (by decide) (occ ['a', 'b'] ⟨[], _, rfl⟩) <|
    .read (by decide) (.right 'c' _ 1) (occ ['a', 'b', 'c'] ⟨[], _, rfl⟩) <|
    .read (by decide) (.right 'd' _ 1) (occ ['a', 'b', 'c', 'd'] ⟨[], _, rfl⟩) <|
    .read (by decide) (.right 'e' _ 1) (occ ['a', 'b', 'c', 'd', 'e'] ⟨[], _, rfl⟩) <|
    .read (by decide) (.mistyped 'f' [] 1 (by decide) (by simp)) (occ ['a', 'b', 'c', 'd', 'e', 'f'] ⟨[], _, rfl⟩) <|
    .done hl⟩

/-- `C96_small` and `C96_exact` apply to the same catalogue with N = 5 and N = 2. -/
example (r : List Char × F32) : ∃ ix cl, Searchable .debug64 .ident (fun c => [c]) parseOne 5 lent ix cl ∧
    (Guesses (fun c => [c]) lent 5 "axbcd".toList r ↔ Resembles "axbcd".toList r.1 ∧ Occurs (fun c => [c]) lent r.1 ∧
      r.2 = exactConfidence (fun c => [c]) lent r.1) := by
  obtain ⟨ix, cl, h⟩ := lent_searchable .ident lent (.inl rfl) 5 (by decide) (by decide)
  exact ⟨ix, cl, h, C96_small h (by decide) (by decide) _ rfl r⟩
example (r : List Char × F32) : ∃ ix cl, Searchable .debug64 .ident (fun c => [c]) parseOne 2 lent ix cl ∧
    (Guesses (fun c => [c]) lent 2 "ab".toList r ↔ Occurs (fun c => [c]) lent "ab".toList ∧
      r = ("ab".toList, exactConfidence (fun c => [c]) lent "ab".toList)) := by
  obtain ⟨ix, cl, h⟩ := lent_searchable .ident lent (.inl rfl) 2 (by decide) (by decide)
  exact ⟨ix, cl, h, C96_exact h (by decide) _ rfl r⟩

end Idx
