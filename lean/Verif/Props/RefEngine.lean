import Verif.Lemmas.RefStep
import Verif.Props.Failures
import Verif.Props.Ordering
import Verif.Props.EndToEnd

/-! C89: for JavaScript the engine that follows references through the arenas is the engine on values, in every sequence of calls. -/

namespace Idx

theorem HashOrd.Agree.refl (o : HashOrd) : o.Agree o := fun _ _ _ _ => rfl

/-- The rankers of a search on both sides. -/
theorem search_rankers {lower : Char → List Char} {w : World RefEngine RefThing} {w' : World Engine Thing} (h : WorldMeans w w') (input : Str)
    {P : HashOrd → HashOrd → Prop} (hP : ∃ o o', P o o')
    (hx : ∀ (r : RefRanker) (r' : Ranker), readValues w.engine.memory.ranked r = some r' → ∃ o o', P o o' ∧
      (RefRanker.export o r).mapM w.engine.memory.ranked = some (Ranker.export o' r')) (i j : Nat) (order : Option Str)
    (filter : List (Str × JsValue)) : ∃ o o', P o o' ∧ ResultsMatch lower w.engine (.search input i j order filter) o o' := by
  have hi := h.index.2
  cases hv : w.engine.index.value with
  | none =>
    obtain ⟨o, o', hp⟩ := hP
    refine ⟨o, o', hp, fun r ix st st' e => ?_⟩
    rw [hv] at e; cases e
  | some r =>
    rw [hv] at hi
    cases hv' : w'.engine.index.value with
    | none => rw [hv'] at hi; exact hi.elim
    | some ix =>
      rw [hv'] at hi
      have hix : w.engine.memory.gramIndex r = some ix := hi
      have hs := refSearchFold_sim h.wf hix ngramIndexSize (input.flatMap lower)
        (s := (([] : RefRanker), List.replicate ngramIndexSize dflt)) (s' := (([] : Ranker), List.replicate ngramIndexSize dflt))
        ⟨mapM_some_nil.2 rfl, rfl⟩
      rcases hs.split with ⟨p, h1, h2⟩ | ⟨st, st', h1, h2, h3⟩
      · obtain ⟨o, o', hp⟩ := hP
        refine ⟨o, o', hp, fun r' ix' st st' e e' e1 e2 => ?_⟩
        rw [hv] at e; cases e
        rw [h1] at e1; cases e1
      · obtain ⟨o, o', hp, he⟩ := hx st.1 st'.1 h3.1
        refine ⟨o, o', hp, fun r' ix' s s' e e' e1 e2 => ?_⟩
        rw [hv] at e; cases e
        rw [hix] at e'; cases e'
        rw [h1] at e1; cases e1
        rw [h2] at e2; cases e2
        exact he

theorem orders_to {lower : Char → List Char} {w : World RefEngine RefThing} {w' : World Engine Thing} (h : WorldMeans w w') (o : HashOrd)
    (ask : Ask) : ∃ o', o.Agree o' ∧ ResultsMatch lower w.engine ask o o' := by
  cases ask with
  | search input i j order filter =>
    obtain ⟨a, b, ⟨rfl, h1⟩, h2⟩ := search_rankers (lower := lower) h input (P := fun a b => a = o ∧ a.Agree b) ⟨o, o, rfl, .refl o⟩
      (fun r r' hr => by obtain ⟨o', h1, h2⟩ := export_to hr o; exact ⟨o, o', ⟨rfl, h1⟩, h2⟩) i j order filter
    exact ⟨b, h1, h2⟩
  | _ => exact ⟨o, .refl o, trivial⟩

theorem orders_back {lower : Char → List Char} {w : World RefEngine RefThing} {w' : World Engine Thing} (h : WorldMeans w w') (o' : HashOrd)
    (ask : Ask) : ∃ o : HashOrd, o.Agree o' ∧ ResultsMatch lower w.engine ask o o' := by
  cases ask with
  | search input i j order filter =>
    obtain ⟨a, b, ⟨rfl, h1⟩, h2⟩ := search_rankers (lower := lower) h input (P := fun a b => b = o' ∧ a.Agree b) ⟨o', o', rfl, .refl o'⟩
      (fun r r' hr => by obtain ⟨o, h1, h2⟩ := export_back hr o'; exact ⟨o, o', ⟨rfl, h1⟩, h2⟩) i j order filter
    exact ⟨a, h1, h2⟩
  | _ => exact ⟨o', .refl o', trivial⟩

/-- The process at start-up, on references. -/
def RefEngine.fresh : World RefEngine RefThing := ⟨RefEngine.start, []⟩

/-- The process at start-up, on values. -/
def Engine.fresh : World Engine Thing := ⟨Engine.start, []⟩

theorem WorldMeans.fresh : WorldMeans RefEngine.fresh Engine.fresh :=
  ⟨Memory.Wf.empty, ⟨rfl, trivial⟩, ⟨rfl, trivial⟩, rfl, fun i r x h => by simp [RefEngine.fresh] at h⟩

theorem run_to {t : Target} {mode : PanicMode} {lower : Char → List Char} : ∀ (calls : List (HashOrd × Ask))
    {w : World RefEngine RefThing} {w' : World Engine Thing}, WorldMeans w w' → ∃ calls' : List (HashOrd × Ask),
    calls'.map (·.2) = calls.map (·.2) ∧
    WorldMeans (runSteps (RefEngine.step t mode lower) w calls).1 (runSteps (Engine.step t mode lower) w' calls').1 ∧
    (runSteps (RefEngine.step t mode lower) w calls).2 = (runSteps (Engine.step t mode lower) w' calls').2 := by
  intro calls
  induction calls with
  | nil => intro w w' h; exact ⟨[], rfl, h, rfl⟩
  | cons c calls ih =>
    intro w w' h
    obtain ⟨o, ask⟩ := c
    obtain ⟨o', h1, h2⟩ := orders_to (lower := lower) h o ask
    obtain ⟨h3, h4⟩ := step_sim (t := t) (mode := mode) h1 h2 h
    obtain ⟨calls', h5, h6, h7⟩ := ih h3
    refine ⟨(o', ask) :: calls', by simp [h5], h6, ?_⟩
    show _ :: _ = _ :: _
    rw [h4, h7]

theorem run_back {t : Target} {mode : PanicMode} {lower : Char → List Char} : ∀ (calls : List (HashOrd × Ask))
    {w : World RefEngine RefThing} {w' : World Engine Thing}, WorldMeans w w' → ∃ calls' : List (HashOrd × Ask),
    calls'.map (·.2) = calls.map (·.2) ∧
    WorldMeans (runSteps (RefEngine.step t mode lower) w calls').1 (runSteps (Engine.step t mode lower) w' calls).1 ∧
    (runSteps (RefEngine.step t mode lower) w calls').2 = (runSteps (Engine.step t mode lower) w' calls).2 := by
  intro calls
  induction calls with
  | nil => intro w w' h; exact ⟨[], rfl, h, rfl⟩
  | cons c calls ih =>
    intro w w' h
    obtain ⟨o, ask⟩ := c
    obtain ⟨o', h1, h2⟩ := orders_back (lower := lower) h o ask
    obtain ⟨h3, h4⟩ := step_sim (t := t) (mode := mode) h1 h2 h
    obtain ⟨calls', h5, h6, h7⟩ := ih h3
    refine ⟨(o', ask) :: calls', by simp [h5], h6, ?_⟩
    show _ :: _ = _ :: _
    rw [h4, h7]

/-- **C89.** Whatever calls JavaScript makes in whatever order on whatever objects, from loading to reading texts: the answers of
the engine that follows references are answers that the engine on values gives to the same calls, for some order of its hash tables. -/
theorem C89_values (t : Target) (mode : PanicMode) (lower : Char → List Char) (calls : List (HashOrd × Ask)) :
    ∃ calls' : List (HashOrd × Ask), calls'.map (·.2) = calls.map (·.2) ∧
    (runSteps (RefEngine.step t mode lower) RefEngine.fresh calls).2 = (runSteps (Engine.step t mode lower) Engine.fresh calls').2 := by
  obtain ⟨calls', h1, _, h2⟩ := run_to (t := t) (mode := mode) (lower := lower) calls WorldMeans.fresh
  exact ⟨calls', h1, h2⟩

/-- And the other way round: every answer of the engine on values is one of the engine on references. -/
theorem C89_references (t : Target) (mode : PanicMode) (lower : Char → List Char) (calls : List (HashOrd × Ask)) :
    ∃ calls' : List (HashOrd × Ask), calls'.map (·.2) = calls.map (·.2) ∧
    (runSteps (RefEngine.step t mode lower) RefEngine.fresh calls').2 = (runSteps (Engine.step t mode lower) Engine.fresh calls).2 := by
  obtain ⟨calls', h1, _, h2⟩ := run_back (t := t) (mode := mode) (lower := lower) calls WorldMeans.fresh
  exact ⟨calls', h1, h2⟩

/-- Nothing that JavaScript holds or the globals hold ever dangles. -/
theorem C89_no_dangling (t : Target) (mode : PanicMode) (lower : Char → List Char) (calls : List (HashOrd × Ask)) :
    let w := (runSteps (RefEngine.step t mode lower) RefEngine.fresh calls).1
    (∀ r, w.engine.index.value = some r → (w.engine.memory.gramIndex r).isSome) ∧
    (∀ r, w.engine.classic.value = some r → (w.engine.memory.classic r).isSome) ∧
    (∀ x ∈ w.things, ∃ v, w.engine.memory.Means x v) := by
  obtain ⟨calls', _, h, _⟩ := run_to (t := t) (mode := mode) (lower := lower) calls WorldMeans.fresh
  refine ⟨fun r hr => ?_, fun r hr => ?_, fun x hx => ?_⟩
  · have := h.index.2
    rw [hr] at this
    rcases this.split with ⟨h1, _⟩ | ⟨_, y, h1, _, h2⟩
    · cases h1
    · cases h1; rw [h2]; rfl
  · have := h.classic.2
    rw [hr] at this
    rcases this.split with ⟨h1, _⟩ | ⟨_, y, h1, _, h2⟩
    · cases h1
    · cases h1; rw [h2]; rfl
  · obtain ⟨i, hi⟩ := List.getElem?_of_mem hx
    rcases h.things.at i with ⟨h1, _⟩ | ⟨r, v, h1, _, h2⟩
    · rw [hi] at h1; cases h1
    · rw [hi] at h1; cases h1; exact ⟨v, h2⟩

/-! ## Products and tags for good -/

/-- Products and tags: objects no call changes. -/
def RefThing.Fixed : RefThing → Prop
  | .product _ _ => True
  | .tag _ _ => True
  | _ => False

/-- What holds for every later state: memory has grown and fixed objects are where they were. -/
def Later (w v : World RefEngine RefThing) : Prop :=
  w.engine.memory.Le v.engine.memory ∧ ∀ (i : Nat) (x : RefThing), x.Fixed → w.things[i]? = some x → v.things[i]? = some x

theorem Later.refl (w : World RefEngine RefThing) : Later w w := ⟨Memory.Le.refl _, fun _ _ _ h => h⟩

theorem Later.trans {a b c : World RefEngine RefThing} (h : Later a b) (h' : Later b c) : Later a c :=
  ⟨h.1.trans h'.1, fun i x hx hi => h'.2 i x hx (h.2 i x hx hi)⟩

theorem Later.hand (w : World RefEngine RefThing) (x : RefThing) : Later w (w.hand x).1 := by
  refine ⟨Memory.Le.refl _, fun i y _ hi => ?_⟩
  exact prefix_get (List.prefix_append _ _) hi

theorem Later.put {w : World RefEngine RefThing} {i : Nat} {y : RefThing} (h : w.things[i]? = some y) (hy : ¬ y.Fixed) (z : RefThing) :
    Later w (w.put i z) := by
  refine ⟨Memory.Le.refl _, fun j x hx hj => ?_⟩
  show (w.things.set i z)[j]? = some x
  rw [List.getElem?_set]
  split
  · rename_i e
    subst e
    rw [h] at hj
    cases hj
    exact (hy hx).elim
  · exact hj

theorem Later.handSome (w : World RefEngine RefThing) (r : Except Panic (Option RefThing)) : Later w (w.handSome r).1 := by
  unfold World.handSome
  split
  · exact .refl w
  · exact .refl w
  · exact .hand w _

theorem RefEngine.search_memory (mode : PanicMode) (o : HashOrd) (lower : Char → List Char) (e : RefEngine) (input : Str)
    (c : RefCatHandler) (g : RefTagHandler) (order : Option Str) (filter : List (Str × JsValue)) :
    (e.search mode o lower input c g order filter).1.memory = e.memory := by
  unfold RefEngine.search
  repeat' split
  all_goals rfl

theorem RefEngine.initialize_memory (t : Target) (e : RefEngine) (file : Bytes) :
    (e.initialize t file).1.memory = (e.memory.load t ngramIndexSize file).1 := by
  unfold RefEngine.initialize
  simp only
  repeat' split
  all_goals rfl

theorem step_later {t : Target} {mode : PanicMode} {lower : Char → List Char} {o : HashOrd} {w : World RefEngine RefThing}
    (hm : w.engine.memory.Wf) (ask : Ask) : Later w (RefEngine.step t mode lower o w ask).1 := by
  cases ask with
  | «initialize» file =>
    refine ⟨?_, fun i x _ h => h⟩
    show w.engine.memory.Le (w.engine.initialize t file).1.memory
    rw [RefEngine.initialize_memory]
    exact (load_wf hm file).1
  | search input i j order filter =>
    unfold RefEngine.step
    simp only
    split
    · rename_i c g _ _
      refine Later.trans (b := { w with engine := (w.engine.search mode o lower input c g order filter).1 })
        ⟨?_, fun i x _ h => h⟩ (.handSome _ _)
      show w.engine.memory.Le (w.engine.search mode o lower input c g order filter).1.memory
      rw [RefEngine.search_memory]
      exact Memory.Le.refl _
    · exact .refl w
  | getCategories => exact .handSome _ _
  | getTags => exact .handSome _ _
  | getOrders => exact .refl w
  | suggest query =>
    unfold RefEngine.step
    simp only
    repeat' split
    all_goals first | exact .refl w | exact .hand w _
  | catToggle i item | catObserve i f | catListen i item f | catUnlisten i item f | tagObserve i f =>
    unfold RefEngine.step
    simp only
    split
    · rename_i h; exact .put h (fun hx => hx) _
    · exact .refl w
  | catStatus i item | categoryName i | tagName i | title i | description i | productId i | numeric i key | text i key =>
    unfold RefEngine.step
    simp only
    split <;> exact .refl w
  | tagStatus i j =>
    unfold RefEngine.step
    simp only
    split <;> exact .refl w
  | catIter i | tagIter i =>
    unfold RefEngine.step
    simp only
    split
    · exact .hand w _
    · exact .refl w
  | nextCategory i | nextTag i =>
    unfold RefEngine.step
    simp only
    split
    · rename_i h
      split
      · exact .refl w
      · exact Later.trans (.put h (fun hx => hx) _) (.hand _ _)
    · exact .refl w
  | nextOption i =>
    unfold RefEngine.step
    simp only
    split
    · rename_i h
      split
      · exact .refl w
      · exact .put h (fun hx => hx) _
    · exact .refl w
  | tagToggle i j | tagListen i j f | tagUnlisten i j f =>
    unfold RefEngine.step
    simp only
    split
    · rename_i h _
      split
      · exact .refl w
      · exact .put h (fun hx => hx) _
    · exact .refl w
  | nextProduct i =>
    unfold RefEngine.step
    simp only
    split
    · rename_i h
      split
      · exact .refl w
      · split
        · exact .refl w
        · split
          · exact .refl w
          · exact Later.trans (.put h (fun hx => hx) _) (.hand _ _)
    · exact .refl w

theorem run_later {t : Target} {mode : PanicMode} {lower : Char → List Char} : ∀ (calls : List (HashOrd × Ask))
    {w : World RefEngine RefThing} {w' : World Engine Thing}, WorldMeans w w' →
    Later w (runSteps (RefEngine.step t mode lower) w calls).1 := by
  intro calls
  induction calls with
  | nil => intro w w' h; exact .refl w
  | cons c calls ih =>
    intro w w' h
    obtain ⟨o, ask⟩ := c
    obtain ⟨o', h1, h2⟩ := orders_to (lower := lower) h o ask
    obtain ⟨h3, _⟩ := step_sim (t := t) (mode := mode) h1 h2 h
    exact (step_later (o := o) h.wf ask).trans (ih h3)

theorem runSteps_append {W : Type} (step : HashOrd → W → Ask → W × JsAnswer) : ∀ (a b : List (HashOrd × Ask)) (w : W),
    runSteps step w (a ++ b) = ((runSteps step (runSteps step w a).1 b).1, (runSteps step w a).2 ++ (runSteps step (runSteps step w a).1 b).2) := by
  intro a
  induction a with
  | nil => intro b w; rfl
  | cons c a ih =>
    intro b w
    obtain ⟨o, ask⟩ := c
    simp only [List.cons_append, runSteps, ih]

/-- Reading from a product or a tag. -/
def Ask.Reads (i : Nat) : Ask → Prop
  | .title p | .description p | .productId p | .numeric p _ | .text p _ | .tagName p => p = i
  | _ => False

/-- A product or a tag that JavaScript holds gives the same answers for good: after other files were loaded, after failed loads,
searches, anything. -/
theorem C89_kept (t : Target) (mode : PanicMode) (lower : Char → List Char) (before later : List (HashOrd × Ask)) (i : Nat)
    (x : RefThing) (hx : x.Fixed) (h : (runSteps (RefEngine.step t mode lower) RefEngine.fresh before).1.things[i]? = some x)
    (ask : Ask) (hask : ask.Reads i) (o o' : HashOrd) :
    (RefEngine.step t mode lower o (runSteps (RefEngine.step t mode lower) RefEngine.fresh before).1 ask).2 =
    (RefEngine.step t mode lower o' (runSteps (RefEngine.step t mode lower) RefEngine.fresh (before ++ later)).1 ask).2 := by
  obtain ⟨calls', _, hw, _⟩ := run_to (t := t) (mode := mode) (lower := lower) before WorldMeans.fresh
  have hl := run_later (t := t) (mode := mode) (lower := lower) later hw
  rw [runSteps_append]
  revert hl hw h
  generalize (runSteps (RefEngine.step t mode lower) RefEngine.fresh before).1 = w
  generalize (runSteps (Engine.step t mode lower) Engine.fresh calls').1 = v
  generalize (runSteps (RefEngine.step t mode lower) w later).1 = w2
  intro h hw hl
  have h2 := hl.2 i x hx h
  rcases hw.things.at i with ⟨h3, _⟩ | ⟨y, z, h3, h4, hz⟩
  · rw [h] at h3; cases h3
  clear h4
  rw [h] at h3; cases h3
  have hz2 := hz.mono hl.1
  cases x <;> try exact hx.elim
  · cases z <;> try exact hz.elim
    cases ask <;> first | exact hask.elim | skip
    all_goals
      simp only [Ask.Reads] at hask
      subst hask
      unfold RefEngine.step
      simp only [h, h2]
  · cases z <;> try exact hz.elim
    rename_i box sid j
    obtain ⟨hz, rfl⟩ := hz
    obtain ⟨hz2, _⟩ := hz2
    have key : ∀ {f : ProductCell → Str} {g : Product → Str}, (∀ c p, w.engine.memory.cellProduct c = some p → f c = g p) →
        (∀ c p, w2.engine.memory.cellProduct c = some p → f c = g p) →
        JsAnswer.of (fun c => .str (f c)) (do indexChecked (← w.engine.memory.followContainer box).products j.sid) =
        JsAnswer.of (fun c => .str (f c)) (do indexChecked (← w2.engine.memory.followContainer box).products j.sid) := by
      intro f g h1 h2
      exact (answer_str (container_product hz j.sid) h1).trans (answer_str (container_product hz2 j.sid) h2).symm
    cases ask <;> first | exact hask.elim | skip
    all_goals
      simp only [Ask.Reads] at hask
      subst hask
      unfold RefEngine.step
      simp only [h, h2]
    · exact key (fun c p hc => (cell_parts hc).1) fun c p hc => (cell_parts hc).1
    · exact key (fun c p hc => (cell_parts hc).2.1) fun c p hc => (cell_parts hc).2.1
    · exact key (fun c p hc => (cell_parts hc).2.2.1) fun c p hc => (cell_parts hc).2.2.1
    · rename_i key
      let f : FeatureSet → Product → Option JsNum := fun extra p => match FeatureSet.get extra p key with
          | some (.float f) => some (jsNumOfF32 f)
          | some (.integer i) => some (jsNumOfNat i.toNat)
          | some (.string _) => none
          | none => none
      exact congrArg (JsAnswer.of JsAnswer.ofNum) ((container_read hz j.sid (f := f)).trans (container_read hz2 j.sid (f := f)).symm)
    · rename_i key
      let f : FeatureSet → Product → Option Str := fun extra p => match FeatureSet.get extra p key with
          | some (.string s) => some s
          | _ => none
      exact congrArg (JsAnswer.of JsAnswer.ofText) ((container_read hz j.sid (f := f)).trans (container_read hz2 j.sid (f := f)).symm)

open Witness in
/-- A run on references that comes to hold a product, as `C89_kept` asks for: load a file, get both handlers, search, take the
first product. -/
example (mode : PanicMode) : ∃ calls : List (HashOrd × Ask), calls.map (·.2) = [.initialize (file catalogueB), .getCategories, .getTags,
      .search kunst 0 1 none [], .nextProduct 2] ∧
    (runSteps (RefEngine.step target mode (fun c => [c])) RefEngine.fresh calls).2 = [.flag true, .made 0, .made 1, .made 2, .made 3] ∧
    ∃ x : RefThing, x.Fixed ∧ (runSteps (RefEngine.step target mode (fun c => [c])) RefEngine.fresh calls).1.things[3]? = some x := by
  obtain ⟨ix, cl, r, hd, hcat, hr, hids⟩ := facts_sound factsB
  let e : Engine := ⟨⟨.free, some ix⟩, ⟨.free, some cl⟩⟩
  have hs : e.search mode .ident (fun c => [c]) kunst (.new cl) (.new cl) none [] = (e, .ok (some ⟨ix.container, [0, 1], 0⟩)) := by
    unfold Engine.search
    obtain ⟨r', h1, h2⟩ := searchIds_spec .ident (fun c => [c]) ix kunst (.new cl) (.new cl) (inRange_new_categories _)
      (inRange_new_tags _) []
    rw [show kunst.flatMap (fun c => [c]) = kunst from rfl, hr] at h1
    cases h1
    simp only [parseFilters, e, Slot.lockOk, h2]
    rw [hids, List.filter_eq_self.2 fun sid _ => by simp [wanted_new]]
    rfl
  have hlen := (C44_search target (file catalogueB) ix cl hd mode .ident (fun c => [c]) e rfl kunst (.new cl) (.new cl) none [] e _ hs).2.2.1 0 (by simp)
  let j : JsProduct := ⟨ix.container, 0⟩
  have hnext : ProductProducer.nextProduct ⟨ix.container, [0, 1], 0⟩ = (⟨ix.container, [0, 1], 1⟩, some j) := by
    unfold ProductProducer.nextProduct
    simp only [List.getElem?_cons_zero]
    rw [List.getElem?_eq_getElem hlen]
  have hrun : runSteps (Engine.step target mode (fun c => [c])) Engine.fresh
      ([.initialize (file catalogueB), .getCategories, .getTags, .search kunst 0 1 none [], .nextProduct 2].map fun a => (HashOrd.ident, a)) =
      (⟨e, [.cats (.new cl), .tags (.new cl), .producer ⟨ix.container, [0, 1], 1⟩, .product j]⟩,
        [.flag true, .made 0, .made 1, .made 2, .made 3]) := by
    have h1 : Engine.step target mode (fun c => [c]) .ident Engine.fresh (.initialize (file catalogueB)) = (⟨e, []⟩, .flag true) := by
      simp [Engine.step, Engine.fresh, Engine.initialize, hd, Engine.start, Slot.lockUnwrap, JsAnswer.of, e]
    have h2 : Engine.step target mode (fun c => [c]) .ident ⟨e, []⟩ .getCategories = (⟨e, [.cats (.new cl)]⟩, .made 0) := rfl
    have h3 : Engine.step target mode (fun c => [c]) .ident ⟨e, [.cats (.new cl)]⟩ .getTags = (⟨e, [.cats (.new cl), .tags (.new cl)]⟩, .made 1) := rfl
    have h4 : Engine.step target mode (fun c => [c]) .ident ⟨e, [.cats (.new cl), .tags (.new cl)]⟩ (.search kunst 0 1 none []) =
        (⟨e, [.cats (.new cl), .tags (.new cl), .producer ⟨ix.container, [0, 1], 0⟩]⟩, .made 2) := by
      simp only [Engine.step, List.getElem?_cons_zero, List.getElem?_cons_succ, hs]
      rfl
    have h5 : Engine.step target mode (fun c => [c]) .ident ⟨e, [.cats (.new cl), .tags (.new cl), .producer ⟨ix.container, [0, 1], 0⟩]⟩ (.nextProduct 2) =
        (⟨e, [.cats (.new cl), .tags (.new cl), .producer ⟨ix.container, [0, 1], 1⟩, .product j]⟩, .made 3) := by
      simp only [Engine.step, List.getElem?_cons_zero, List.getElem?_cons_succ, hnext]
      rfl
    simp only [List.map_cons, List.map_nil, runSteps, h1, h2, h3, h4, h5]
  obtain ⟨calls, h1, h2, h3⟩ := run_back (t := target) (mode := mode) (lower := fun c => [c])
    ([.initialize (file catalogueB), .getCategories, .getTags, .search kunst 0 1 none [], .nextProduct 2].map fun a => (HashOrd.ident, a)) WorldMeans.fresh
  rw [hrun] at h2 h3
  refine ⟨calls, h1, h3, ?_⟩
  rcases h2.things.at 3 with ⟨_, h4⟩ | ⟨x, y, h4, h5, h6⟩
  · simp at h4
  · simp only [List.getElem?_cons_succ, List.getElem?_cons_zero, Option.some.injEq] at h5
    subst h5
    cases x <;> first | exact h6.elim | exact ⟨.product _ _, trivial, h4⟩

end Idx
