import Verif.Props.Concurrent
/-! # C43: when a search sees parts of one file -/
namespace Idx

/-- Spec: some `initialize` with this file is in the log. -/
def Used (log : List (Nat × Request × Op × Answer)) (file : Bytes) : Prop := ∃ i op a, (i, Request.init file, op, a) ∈ log

/-- Spec: both globals belong to one of the files, or nothing is loaded. -/
def OneFile (t : Target) (files : Bytes → Prop) (e : Engine) : Prop :=
  (e.index.value = none ∧ e.classic.value = none) ∨
  ∃ file ix cl, files file ∧ deserializeAll t ngramIndexSize file = .ok (ix, cl) ∧ e.index.value = some ix ∧ e.classic.value = some cl

/-- What effects do to the contents. -/
theorem apply_values {lower : Char → List Char} {e e' : Engine} {op : Op} {a : Answer} (h : op.apply lower e = (e', a)) :
    (∃ ix, op = .setIndex ix ∧ a = .half ∧ e'.index.value = some ix ∧ e'.classic.value = e.classic.value) ∨
    (∃ cl, op = .setClassic cl ∧ a = .loaded ∧ e'.classic.value = some cl ∧ e'.index.value = e.index.value) ∨
    (a ≠ .half ∧ a ≠ .loaded ∧ e'.index.value = e.index.value ∧ e'.classic.value = e.classic.value) := by
  cases op with
  | refuse w => cases h; exact .inr (.inr ⟨by simp, by simp, rfl, rfl⟩)
  | setIndex ix =>
    simp only [Op.apply] at h
    split at h
    · cases h; exact .inr (.inr ⟨by simp, by simp, rfl, rfl⟩)
    · cases h; exact .inl ⟨ix, rfl, rfl, rfl, rfl⟩
  | setClassic cl =>
    simp only [Op.apply] at h
    split at h
    · cases h; exact .inr (.inr ⟨by simp, by simp, rfl, rfl⟩)
    · cases h; exact .inr (.inl ⟨cl, rfl, rfl, rfl, rfl⟩)
  | search args =>
    simp only [Op.apply] at h
    obtain ⟨h1, h2⟩ := search_state .unwind args.o lower e args.input args.cats args.tags args.order args.filter
    split at h
    · rename_i e'' r hr
      cases h
      have := h1 _ _ hr
      subst this
      exact .inr (.inr ⟨by simp, by simp, rfl, rfl⟩)
    · rename_i e'' w hr
      cases h
      obtain ⟨h3, h4, _⟩ := h2 _ _ hr
      exact .inr (.inr ⟨by simp, by simp, h3, h4⟩)
  | read k =>
    cases h
    refine .inr (.inr ⟨?_, ?_, rfl, rfl⟩) <;> cases k <;> simp only [ReadKind.run] <;> split <;> simp

/-- Every entry of an explained log happened in some state reached by the entries before it. -/
theorem explains_split {lower : Char → List Char} {log : List (Nat × Request × Op × Answer)} {e : Engine}
    (h : Explains lower log e) : ∀ pre x post, log = pre ++ x :: post →
    ∃ e₀ e₁, Explains lower pre e₀ ∧ x.2.2.1.apply lower e₀ = (e₁, x.2.2.2) := by
  induction h with
  | nil => intro pre x post h; simp at h
  | snoc i r hl happ ih =>
    intro pre x post heq
    rcases List.eq_nil_or_concat post with rfl | ⟨post', y, rfl⟩
    · have := List.append_inj' heq rfl
      obtain ⟨rfl, hx⟩ := this
      cases hx
      exact ⟨_, _, hl, happ⟩
    · rw [List.concat_eq_append, ← List.cons_append, ← List.append_assoc] at heq
      obtain ⟨h1, _⟩ := List.append_inj' heq rfl
      exact ih pre x post' h1

/-- Searching without an order does not look at the other global. -/
theorem search_unordered (lower : Char → List Char) (args : SearchArgs) (h : args.order = none) (e e' : Engine)
    (he : e.index = e'.index) : ((Op.search args).apply lower e).2 = ((Op.search args).apply lower e').2 := by
  simp only [Op.apply, Engine.search, h, he]
  cases parseFilters args.filter with
  | none => rfl
  | some fs =>
    simp only
    cases e'.index.lockOk with
    | error w => rfl
    | ok v =>
      cases v with
      | none => rfl
      | some ix =>
        simp only
        cases searchIds args.o lower ix args.input args.cats args.tags fs <;> rfl

/-- In every interleaving a search without an order gets the answer of the sequential search on one file (or on
nothing): it never mixes. -/
theorem C43_unordered (t : Target) (lower : Char → List Char) (s : Conc) (h : Conc.Reach t lower s) (i : Nat)
    (args : SearchArgs) (a : Answer) (hm : (i, Request.search args, Op.search args, a) ∈ s.log) (ho : args.order = none) :
    ∃ e, OneFile t (Used s.log) e ∧ ((Op.search args).apply lower e).2 = a := by
  obtain ⟨hexp, hbel, _⟩ := C43_atomic t lower s h
  obtain ⟨pre, post, heq⟩ := List.append_of_mem hm
  obtain ⟨e₀, e₁, hpre, happ⟩ := explains_split hexp _ _ _ heq
  have hidx : ∀ log e, Explains lower log e → (∀ x ∈ log, Belongs t x.2.1 x.2.2.1 ∧ x ∈ s.log) →
      e.index.value = none ∨ ∃ file ix cl, Used s.log file ∧ deserializeAll t ngramIndexSize file = .ok (ix, cl) ∧ e.index.value = some ix := by
    intro log e hx hb
    induction hx with
    | nil => exact .inl rfl
    | snoc i r hl happ ih =>
      have ih := ih fun x hx => hb x (by simp [hx])
      rcases apply_values happ with ⟨ix, rfl, _, hv, _⟩ | ⟨_, _, _, _, hv⟩ | ⟨_, _, hv, _⟩
      · have := hb _ (List.mem_append_right _ (List.mem_singleton.2 rfl))
        cases r with
        | init file =>
          obtain ⟨⟨cl, hd⟩, hin⟩ := this
          exact .inr ⟨file, ix, cl, ⟨_, _, _, hin⟩, hd, hv⟩
        | search _ => cases this.1
        | read _ => cases this.1
      · rw [hv]; exact ih
      · rw [hv]; exact ih
  have happ' : ((Op.search args).apply lower e₀).2 = a := by rw [happ]
  have hin : ∀ x ∈ pre, x ∈ s.log := fun x hx => by rw [heq]; simp [hx]
  rcases hidx pre e₀ hpre (fun x hx => ⟨hbel x (hin x hx), hin x hx⟩) with hn | ⟨file, ix, cl, hu, hd, hv⟩
  · exact ⟨⟨e₀.index, ⟨.free, none⟩⟩, .inl ⟨hn, rfl⟩, by rw [← happ']; exact search_unordered lower args ho _ _ rfl⟩
  · exact ⟨⟨e₀.index, ⟨.free, some cl⟩⟩, .inr ⟨file, ix, cl, hu, hd, hv, rfl⟩, by
      rw [← happ']; exact search_unordered lower args ho _ _ rfl⟩

/-- Spec: in the log no other `initialize` and no search with an order falls between the two halves of an `initialize`;
`m` is the file that is half loaded at the end. -/
inductive Tidy : List (Nat × Request × Op × Answer) → Option Bytes → Prop where
  | nil : Tidy [] none
  | half {log} (i : Nat) (file : Bytes) (ix : GramIndex Char) : Tidy log none →
      Tidy (log ++ [(i, .init file, .setIndex ix, .half)]) (some file)
  | whole {log} (i : Nat) (file : Bytes) (cl : Classic) : Tidy log (some file) →
      Tidy (log ++ [(i, .init file, .setClassic cl, .loaded)]) none
  | other {log m} (i : Nat) (r : Request) (op : Op) (a : Answer) : Tidy log m → a ≠ .half → a ≠ .loaded →
      (∀ args, op = .search args → args.order ≠ none → m = none) → Tidy (log ++ [(i, r, op, a)]) m

theorem tidy_split {log : List (Nat × Request × Op × Answer)} {m : Option Bytes} (h : Tidy log m) :
    ∀ pre x post, log = pre ++ x :: post →
    ∃ m', Tidy pre m' ∧ ∀ args, x.2.2.1 = .search args → args.order ≠ none → m' = none := by
  induction h with
  | nil => intro pre x post h; simp at h
  | half i file ix hl ih =>
    intro pre x post heq
    rcases List.eq_nil_or_concat post with rfl | ⟨post', y, rfl⟩
    · obtain ⟨rfl, hx⟩ := List.append_inj' heq rfl
      cases hx
      exact ⟨none, hl, by simp⟩
    · rw [List.concat_eq_append, ← List.cons_append, ← List.append_assoc] at heq
      exact ih pre x post' (List.append_inj' heq rfl).1
  | whole i file cl hl ih =>
    intro pre x post heq
    rcases List.eq_nil_or_concat post with rfl | ⟨post', y, rfl⟩
    · obtain ⟨rfl, hx⟩ := List.append_inj' heq rfl
      cases hx
      exact ⟨_, hl, by simp⟩
    · rw [List.concat_eq_append, ← List.cons_append, ← List.append_assoc] at heq
      exact ih pre x post' (List.append_inj' heq rfl).1
  | other i r op a hl ha hb hs ih =>
    intro pre x post heq
    rcases List.eq_nil_or_concat post with rfl | ⟨post', y, rfl⟩
    · obtain ⟨rfl, hx⟩ := List.append_inj' heq rfl
      cases hx
      exact ⟨_, hl, hs⟩
    · rw [List.concat_eq_append, ← List.cons_append, ← List.append_assoc] at heq
      exact ih pre x post' (List.append_inj' heq rfl).1

/-- Spec: the contents when `m` is half loaded. -/
def HalfOf (t : Target) (files : Bytes → Prop) (e : Engine) : Option Bytes → Prop
  | none => OneFile t files e
  | some file => ∃ ix cl, files file ∧ deserializeAll t ngramIndexSize file = .ok (ix, cl) ∧ e.index.value = some ix

/-- With a tidy log both globals belong to one file whenever none is half loaded. -/
theorem tidy_one {t : Target} {lower : Char → List Char} {whole : List (Nat × Request × Op × Answer)}
    {log : List (Nat × Request × Op × Answer)} {m : Option Bytes} (h : Tidy log m) :
    ∀ e, Explains lower log e → (∀ x ∈ log, Belongs t x.2.1 x.2.2.1 ∧ x ∈ whole) → HalfOf t (Used whole) e m := by
  have snoc : ∀ {log : List (Nat × Request × Op × Answer)} {i : Nat} {r : Request} {op : Op} {a : Answer} {e : Engine},
      Explains lower (log ++ [(i, r, op, a)]) e → ∃ e₀, Explains lower log e₀ ∧ op.apply lower e₀ = (e, a) := by
    intro log i r op a e hx
    generalize hl : log ++ [(i, r, op, a)] = l at hx
    cases hx with
    | nil => simp at hl
    | snoc i' r' h1 h2 =>
      obtain ⟨rfl, hx⟩ := List.append_inj' hl rfl
      cases hx
      exact ⟨_, h1, h2⟩
  induction h with
  | nil =>
    intro e hx _
    generalize hl : ([] : List (Nat × Request × Op × Answer)) = l at hx
    cases hx with
    | nil => exact .inl ⟨rfl, rfl⟩
    | snoc i r h1 h2 => simp at hl
  | half i file ix _ ih =>
    intro e hx hb
    obtain ⟨e₀, _, happ⟩ := snoc hx
    rcases apply_values happ with ⟨ix', heq, _, hv, _⟩ | ⟨_, heq, _⟩ | ⟨h1, _⟩
    · cases heq
      obtain ⟨⟨cl, hd⟩, hin⟩ := hb (i, .init file, .setIndex ix, .half) (by simp)
      exact ⟨ix, cl, ⟨_, _, _, hin⟩, hd, hv⟩
    · cases heq
    · exact absurd rfl h1
  | whole i file cl _ ih =>
    intro e hx hb
    obtain ⟨e₀, hx₀, happ⟩ := snoc hx
    have ih := ih e₀ hx₀ fun x hx => hb x (by simp [hx])
    rcases apply_values happ with ⟨_, heq, _⟩ | ⟨cl', heq, _, hv, hv'⟩ | ⟨_, h1, _⟩
    · cases heq
    · cases heq
      obtain ⟨⟨ix', hd⟩, _⟩ := hb (i, .init file, .setClassic cl, .loaded) (by simp)
      obtain ⟨ix, cl', hu, hd', hi⟩ := ih
      rw [hd] at hd'
      cases hd'
      exact .inr ⟨file, ix', cl, hu, hd, by rw [hv', hi], hv⟩
    · exact absurd rfl h1
  | @other log m i r op a _ ha hb' _ ih =>
    intro e hx hb
    obtain ⟨e₀, hx₀, happ⟩ := snoc hx
    have ih := ih e₀ hx₀ fun x hx => hb x (by simp [hx])
    rcases apply_values happ with ⟨_, _, h1, _⟩ | ⟨_, _, h1, _⟩ | ⟨_, _, h1, h2⟩
    · exact absurd h1 ha
    · exact absurd h1 hb'
    · cases m with
      | none =>
        simp only [HalfOf, OneFile] at ih ⊢
        rw [h1, h2]
        exact ih
      | some file =>
        simp only [HalfOf] at ih ⊢
        rw [h1]
        exact ih

/-- In every interleaving in which neither another `initialize` nor a search with an order takes effect between the two
halves of an `initialize`, every search gets the answer of the sequential search on one file. Missing for the full
claim: the other interleavings, for which it is false (`C43_false`). -/
theorem C43_partial (t : Target) (lower : Char → List Char) (s : Conc) (h : Conc.Reach t lower s) (m : Option Bytes)
    (ht : Tidy s.log m) (i : Nat) (args : SearchArgs) (a : Answer)
    (hm : (i, Request.search args, Op.search args, a) ∈ s.log) :
    ∃ e, OneFile t (Used s.log) e ∧ ((Op.search args).apply lower e).2 = a := by
  by_cases ho : args.order = none
  · exact C43_unordered t lower s h i args a hm ho
  · obtain ⟨hexp, hbel, _⟩ := C43_atomic t lower s h
    obtain ⟨pre, post, heq⟩ := List.append_of_mem hm
    obtain ⟨e₀, e₁, hpre, happ⟩ := explains_split hexp _ _ _ heq
    obtain ⟨m', hm', hnone⟩ := tidy_split ht _ _ _ heq
    have := hnone args rfl ho
    subst this
    exact ⟨e₀, tidy_one hm' e₀ hpre fun x hx =>
      have hin : x ∈ s.log := by rw [heq]; simp [hx]
      ⟨hbel x hin, hin⟩, by rw [happ]⟩

end Idx
