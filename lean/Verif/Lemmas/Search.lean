import Verif.Lemmas.Tree
import Verif.Lemmas.F32
import Verif.Lemmas.Order
/-! The fuzzy tree search: it never panics and returns the best of all candidates. -/
set_option linter.unusedSectionVars false
namespace Idx
variable {G : Type} [DecidableEq G] [RDefault G]

/-! ## Candidates -/

/-- The candidates of `recursive_search` (src/ngram/index.rs:135-259) as a set, without any order of evaluation
or choice of the best: how a walk may go on from its current state. -/
inductive Cand (n limit : Nat) : List G → GramNode G → Option (GramNode G) → Nat → F32 → List G → Nat →
    List G × F32 → Prop where
  | done {input node prev changes weight buf index} : index = n →
      Cand n limit input node prev changes weight buf index (buf, weight)
  | follow {g input node prev changes weight buf index u r} : index < n → AMap.get node.items g = some u →
      Cand n limit input u (some node) changes (F32.mul weight u.weight) (buf.set index u.item) (index + 1) r →
      Cand n limit (g :: input) node prev changes weight buf index r
  | replace {input node prev changes weight buf index c r} : index < n → changes < limit → c ∈ node.byOcc →
      some c.item ≠ (input.head?.bind fun g => AMap.get node.items g).map (·.item) →
      Cand n limit input.tail c (some node) (changes + 1) (F32.mul weight c.weight) (buf.set index c.item)
        (index + 1) r →
      Cand n limit input node prev changes weight buf index r
  | forgotten {input node prev changes weight buf index c r} : index < n → changes < limit → c ∈ node.byOcc →
      some c.item ≠ (input.head?.bind fun g => AMap.get node.items g).map (·.item) →
      Cand n limit input c (some node) (changes + 2) (F32.mul weight c.weight) (buf.set index c.item)
        (index + 1) r →
      Cand n limit input node prev changes weight buf index r
  | ignorePrevious {g input node p changes weight buf index last r} : index < n → changes < limit →
      AMap.get p.items g = some last →
      Cand n limit input last none (changes + 1) weight (buf.set (index - 1) last.item) index r →
      Cand n limit (g :: input) node (some p) changes weight buf index r

/-- `res` is an element of `S`, of maximal weight if no weight in `S` is NaN; it is absent only if `S` is empty. -/
structure IsBest (S : List G × F32 → Prop) (res : Found G) : Prop where
  mem : ∀ r, res = some r → S r
  answered : ∀ r, S r → ∃ r', res = some r'
  best : (∀ r, S r → ¬ r.2.IsNan) → ∀ r, S r → ∀ r', res = some r' → F32.lt r'.2 r.2 = false

theorem IsBest.empty : IsBest (fun _ : List G × F32 => False) none :=
  ⟨by simp, by simp, by simp⟩

theorem IsBest.congr {S T : List G × F32 → Prop} {res : Found G} (h : IsBest S res) (e : ∀ r, S r ↔ T r) : IsBest T res := by
  have : S = T := funext fun r => propext (e r)
  rw [← this]; exact h

theorem IsBest.combine {S T : List G × F32 → Prop} {a b : Found G} (ha : IsBest S a) (hb : IsBest T b) :
    IsBest (fun r => S r ∨ T r) (bestResult a b) := by
  cases a with
  | none =>
    have hS : ∀ r, ¬ S r := fun r hr => by obtain ⟨r', h⟩ := ha.answered r hr; simp at h
    have e : bestResult (none : Found G) b = b := by cases b <;> rfl
    rw [e]
    exact hb.congr fun r => by simp [hS r]
  | some x =>
    cases b with
    | none =>
      have hT : ∀ r, ¬ T r := fun r hr => by obtain ⟨r', h⟩ := hb.answered r hr; simp at h
      exact ha.congr fun r => by simp [hT r]
    | some y =>
      have hx := ha.mem x rfl
      have hy := hb.mem y rfl
      have e : bestResult (some x) (some y) = some (if F32.lt y.2 x.2 then x else y) := rfl
      rw [e]
      refine ⟨?_, fun r _ => ⟨_, rfl⟩, ?_⟩
      · intro r hr
        simp only [Option.some.injEq] at hr
        rw [← hr]
        split
        · exact .inl hx
        · exact .inr hy
      · intro hnan r hr r' hr'
        simp only [Option.some.injEq] at hr'
        have nx := hnan x (.inl hx)
        have ny := hnan y (.inr hy)
        have nr := hnan r hr
        have hxr : S r → F32.lt x.2 r.2 = false := fun h => ha.best (fun r h => hnan r (.inl h)) r h x rfl
        have hyr : T r → F32.lt y.2 r.2 = false := fun h => hb.best (fun r h => hnan r (.inr h)) r h y rfl
        by_cases hlt : F32.lt y.2 x.2 = true
        · rw [if_pos hlt] at hr'
          subst hr'
          rcases hr with hr | hr
          · exact hxr hr
          · exact F32.le_trans nr ny nx (hyr hr) (F32.lt_asymm hlt)
        · rw [if_neg hlt] at hr'
          subst hr'
          rcases hr with hr | hr
          · exact F32.le_trans nr nx ny (hxr hr) (by simpa using hlt)
          · exact hyr hr

theorem popularLoop_best (step : GramNode G → Except Panic (Found G × Found G)) (S T : GramNode G → List G × F32 → Prop) :
    ∀ (l : List (GramNode G)) (best : Found G) (B : List G × F32 → Prop), IsBest B best →
    (∀ c ∈ l, ∃ f r, step c = .ok (f, r) ∧ IsBest (S c) f ∧ IsBest (T c) r) →
    ∃ res, popularLoop step l best = .ok res ∧ IsBest (fun x => B x ∨ ∃ c ∈ l, S c x ∨ T c x) res := by
  intro l
  induction l with
  | nil => intro best B hB _; exact ⟨best, rfl, hB.congr fun r => by simp⟩
  | cons c l ih =>
    intro best B hB hstep
    obtain ⟨f, r, e, hf, hr⟩ := hstep c (by simp)
    obtain ⟨res, e2, hres⟩ := ih (bestResult (bestResult f r) best) _ ((hf.combine hr).combine hB)
      (fun c hc => hstep c (by simp [hc]))
    refine ⟨res, ?_, hres.congr fun x => ?_⟩
    · rw [popularLoop, e]; exact e2
    · simp only [List.mem_cons]
      constructor
      · rintro ((h | h) | ⟨d, hd, h⟩)
        · exact .inr ⟨c, .inl rfl, h⟩
        · exact .inl h
        · exact .inr ⟨d, .inr hd, h⟩
      · rintro (h | ⟨d, rfl | hd, h⟩)
        · exact .inl (.inr h)
        · exact .inl (.inl h)
        · exact .inr ⟨d, hd, h⟩

theorem setChecked_ok {a : List G} {i : Nat} (h : i < a.length) (x : G) : setChecked a i x = .ok (a.set i x) := by
  simp [setChecked, h]

theorem succU8_ok {a : Nat} (h : a + 1 < 256) : succU8 a = .ok (a + 1) := by simp [succU8, h]

theorem except_bind_ok {ε α β : Type} (a : α) (f : α → Except ε β) : ((Except.ok a : Except ε α) >>= f) = f a := rfl

/-- The search never panics and returns the best candidate. -/
theorem recursiveSearch_best (n limit : Nat) (hlim : limit ≤ 254) : ∀ (d k : Nat) (input : List G) (node : GramNode G)
    (prev : Option (GramNode G)) (changes : Nat) (weight : F32) (buf : List G) (index : Nat),
    limit - changes = d → n - index = k → 1 ≤ index → index ≤ n → buf.length = n →
    ∃ res, recursiveSearch n input node prev changes limit weight buf index = .ok res ∧
      IsBest (Cand n limit input node prev changes weight buf index) res := by
  intro d
  induction d using Nat.strongRecOn with
  | _ d ihd =>
  intro k
  induction k using Nat.strongRecOn with
  | _ k ihk =>
  intro input node prev changes weight buf index hd hk h1 hn hbuf
  rw [recursiveSearch]
  by_cases hdone : index = n
  · rw [if_pos hdone]
    refine ⟨_, rfl, ?_, fun _ _ => ⟨_, rfl⟩, ?_⟩
    · intro r hr; cases hr; exact .done hdone
    · intro hnan r hr r' hr'
      cases hr'
      cases hr with
      | done _ =>
        cases h : F32.lt weight weight with
        | false => rfl
        | true => have := F32.lt_asymm h; rw [h] at this; exact this
      | follow h => omega
      | replace h => omega
      | forgotten h => omega
      | ignorePrevious h => omega
  rw [if_neg hdone, if_neg (by omega)]
  have hlt : index < n := by omega
  have hset : index < buf.length := by omega
  -- the entered gram
  have huser : ∃ ml, ifNode (input.head?.bind (fun gram => AMap.get node.items gram)) none (fun u => do
        let previousInput ← setChecked buf index u.item
        let found ← recursiveSearch n input.tail u (some node) changes limit
          (F32.mul weight u.weight) previousInput (index + 1)
        .ok (bestResult found none)) = .ok ml ∧
      IsBest (fun r => ∃ u, input.head?.bind (fun gram => AMap.get node.items gram) = some u ∧
        Cand n limit input.tail u (some node) changes (F32.mul weight u.weight) (buf.set index u.item) (index + 1) r) ml := by
    cases hu : input.head?.bind (fun gram => AMap.get node.items gram) with
    | none => exact ⟨none, by rfl, IsBest.empty.congr fun r => by simp⟩
    | some u =>
      obtain ⟨res, e, hres⟩ := ihk (n - (index + 1)) (by omega) input.tail u (some node) changes
        (F32.mul weight u.weight) (buf.set index u.item) (index + 1) hd rfl (by omega) (by omega) (by simpa using hbuf)
      refine ⟨bestResult res none, ?_, (hres.combine IsBest.empty).congr fun r => by simp⟩
      simp only [ifNode, setChecked_ok hset, except_bind_ok, e]
  obtain ⟨ml, eml, hml⟩ := huser
  simp only [eml, except_bind_ok]
  by_cases hch : changes < limit
  · rw [dif_pos hch, succU8_ok (by omega)]
    simp only [except_bind_ok]
    -- the popular grams
    obtain ⟨pop, epop, hpop⟩ := popularLoop_best (fun c => do
          let previousInput ← setChecked buf index c.item
          let found ← recursiveSearch n input.tail c (some node) (changes + 1) limit
            (F32.mul weight c.weight) previousInput (index + 1)
          let _changes2 ← succU8 (changes + 1)
          let repeatFound ← recursiveSearch n input c (some node) (changes + 2) limit
            (F32.mul weight c.weight) previousInput (index + 1)
          .ok (found, repeatFound))
      (fun c => Cand n limit input.tail c (some node) (changes + 1) (F32.mul weight c.weight) (buf.set index c.item)
        (index + 1))
      (fun c => Cand n limit input c (some node) (changes + 2) (F32.mul weight c.weight) (buf.set index c.item)
        (index + 1))
      (node.byOcc.filter fun c => decide (some c.item ≠
        (input.head?.bind fun gram => AMap.get node.items gram).map (·.item))) ml _ hml
      (by
        intro c _
        obtain ⟨f, ef, hf⟩ := ihd (limit - (changes + 1)) (by omega) _ input.tail c (some node) (changes + 1)
          (F32.mul weight c.weight) (buf.set index c.item) (index + 1) rfl rfl (by omega) (by omega) (by simpa using hbuf)
        obtain ⟨r, er, hr⟩ := ihd (limit - (changes + 2)) (by omega) _ input c (some node) (changes + 2)
          (F32.mul weight c.weight) (buf.set index c.item) (index + 1) rfl rfl (by omega) (by omega) (by simpa using hbuf)
        refine ⟨f, r, ?_, hf, hr⟩
        simp only [setChecked_ok hset, except_bind_ok, ef, er, succU8_ok (show changes + 1 + 1 < 256 by omega)])
    simp only [epop, except_bind_ok]
    -- ignoring the previous gram
    cases hprev : input.head?.bind (fun gram => prev.bind fun p => AMap.get p.items gram) with
    | none =>
      refine ⟨pop, rfl, hpop.congr fun r => ?_⟩
      constructor
      · rintro (⟨u, hu, hc⟩ | ⟨c, hc, h | h⟩)
        · cases input with
          | nil => simp at hu
          | cons g rest => exact .follow hlt hu hc
        · simp only [List.mem_filter, decide_eq_true_eq] at hc
          exact .replace hlt hch hc.1 hc.2 h
        · simp only [List.mem_filter, decide_eq_true_eq] at hc
          exact .forgotten hlt hch hc.1 hc.2 h
      · intro h
        cases h with
        | done h => exact absurd h hdone
        | follow _ hu hc => exact .inl ⟨_, hu, hc⟩
        | replace _ _ hm hne hc =>
          exact .inr ⟨_, by simp only [List.mem_filter, decide_eq_true_eq]; exact ⟨hm, hne⟩, .inl hc⟩
        | forgotten _ _ hm hne hc =>
          exact .inr ⟨_, by simp only [List.mem_filter, decide_eq_true_eq]; exact ⟨hm, hne⟩, .inr hc⟩
        | ignorePrevious _ _ hl hc => simp [hl] at hprev
    | some last =>
      obtain ⟨ig, eig, hig⟩ := ihd (limit - (changes + 1)) (by omega) _ input.tail last none (changes + 1)
          weight (buf.set (index - 1) last.item) index rfl rfl (by omega) (by omega) (by simpa using hbuf)
      simp only [ifNode, setChecked_ok (show index - 1 < buf.length by omega), except_bind_ok, eig]
      refine ⟨_, rfl, (hig.combine hpop).congr fun r => ?_⟩
      constructor
      · rintro (h | ⟨u, hu, hc⟩ | ⟨c, hc, h | h⟩)
        · cases input with
          | nil => simp at hprev
          | cons g rest =>
            cases prev with
            | none => simp at hprev
            | some p => exact .ignorePrevious hlt hch (by simpa using hprev) h
        · cases input with
          | nil => simp at hu
          | cons g rest => exact .follow hlt hu hc
        · simp only [List.mem_filter, decide_eq_true_eq] at hc
          exact .replace hlt hch hc.1 hc.2 h
        · simp only [List.mem_filter, decide_eq_true_eq] at hc
          exact .forgotten hlt hch hc.1 hc.2 h
      · intro h
        cases h with
        | done h => exact absurd h hdone
        | follow _ hu hc => exact .inr (.inl ⟨_, hu, hc⟩)
        | replace _ _ hm hne hc =>
          exact .inr (.inr ⟨_, by simp only [List.mem_filter, decide_eq_true_eq]; exact ⟨hm, hne⟩, .inl hc⟩)
        | forgotten _ _ hm hne hc =>
          exact .inr (.inr ⟨_, by simp only [List.mem_filter, decide_eq_true_eq]; exact ⟨hm, hne⟩, .inr hc⟩)
        | ignorePrevious _ _ hl hc =>
          simp only [List.head?_cons, Option.bind_some, hl, Option.some.injEq] at hprev
          subst hprev
          exact .inl hc
  · rw [dif_neg hch]
    refine ⟨ml, rfl, hml.congr fun r => ?_⟩
    constructor
    · rintro ⟨u, hu, hc⟩
      cases input with
      | nil => simp at hu
      | cons g rest => exact .follow hlt hu hc
    · intro h
      cases h with
      | done h => exact absurd h hdone
      | follow _ hu hc => exact ⟨_, hu, hc⟩
      | replace _ h => exact absurd h hch
      | forgotten _ h => exact absurd h hch
      | ignorePrevious _ h => exact absurd h hch

end Idx
