import Verif.Model.Stack
import Verif.Lemmas.Decode
import Verif.Lemmas.Run
import Verif.Props.Reload
import Verif.Props.Index

/-! How deep the decoder's recursion goes: on arbitrary bytes, on crafted files, and on written files. -/

namespace Idx

/-! ## Arbitrary bytes -/

theorem deF32_takes {input rest : Bytes} {w : F32} (h : deF32 input = .ok (rest, w)) : rest.length + 4 = input.length := by
  unfold deF32 at h
  split at h
  · simp only [Res.ok.injEq, Prod.mk.injEq] at h
    obtain ⟨rfl, _⟩ := h
    simp
  · cases h

/-- A nested call has at least six bytes less to read: item, weight and number of children come before it. -/
theorem deNodeIn_agree (t : Target) : ∀ (stack fuel m : Nat), m ≤ 6 * stack → m ≤ fuel →
    Agree m (deNode t fuel) (deNodeIn t stack) := by
  intro stack
  induction stack with
  | zero => intro fuel m h _ input hi; omega
  | succ stack ih =>
    intro fuel m h1 h2 input hi
    cases fuel with
    | zero => omega
    | succ fuel =>
      unfold deNode deNodeIn
      rw [De.bind_apply, De.bind_apply]
      cases e : deChar input with
      | none => rfl
      | panic w => rfl
      | ok r =>
        obtain ⟨r, c⟩ := r
        have hlt := eats_char _ _ _ e
        simp only [Res.bind_ok]
        rw [De.bind_apply, De.bind_apply]
        cases e2 : deF32 r with
        | none => rfl
        | panic w => rfl
        | ok r2 =>
          obtain ⟨r2, w⟩ := r2
          have hlt2 := deF32_takes e2
          simp only [Res.bind_ok]
          have key : deVec t (deNode t fuel) r2 = deVec t (deNodeIn t stack) r2 := by
            unfold deVec
            rw [De.bind_apply, De.bind_apply]
            cases e3 : deLen t "vec" r2 with
            | none => rfl
            | panic w => rfl
            | ok r3 =>
              obtain ⟨r3, len⟩ := r3
              have hlt3 := eats_len t _ _ _ _ e3
              simp only [Res.bind_ok]
              exact (ih fuel (r3.length + 1) (by omega) (by omega)).times (good_node t fuel) len r3 (by omega)
          rw [De.bind_apply, De.bind_apply, key]

/-- Room for one call per six bytes of input is always enough. -/
theorem C78_enough (t : Target) (n stack : Nat) (input : Bytes) (h : input.length < 6 * stack) :
    deserializeAllIn t n stack input = deserializeAll t n input := by
  have hnode : Agree (6 * stack) (deNodeTop t) (deNodeIn t stack) := fun x hx =>
    deNodeIn_agree t stack (x.length + 1) (x.length + 1) (by omega) (by omega) x (by omega)
  have hgood : Good t (do let k ← deChar; let v ← deNodeTop t; pure (k, v)) fun _ => True :=
    (good_char t).bind fun _ _ => (good_nodeTop t).bind fun _ _ => Good.pure trivial
  have hmap : Agree (6 * stack) (deMap t deChar (deNodeTop t)) (deMap t deChar (deNodeIn t stack)) := by
    refine Agree.bind (t := t) (Agree.refl _ _) (good_len t _) fun len => ?_
    refine Agree.bind (t := t) (P := fun _ => True) ?_ ((hgood.times len).mono fun _ _ => trivial) fun _ => Agree.refl _ _
    refine Agree.times (t := t) ?_ hgood len
    refine Agree.bind (t := t) (Agree.refl _ _) (good_char t) fun k => ?_
    exact Agree.bind (t := t) hnode (good_nodeTop t) fun _ => Agree.refl _ _
  have hgram : Agree (6 * stack) (deGramIndex t n) (deGramIndexIn t n stack) := by
    refine Agree.bind (t := t) (Agree.refl _ _) (good_container t) fun c => ?_
    exact Agree.bind (t := t) hmap (good_map (good_char t) (good_nodeTop t)) fun _ => Agree.refl _ _
  simp only [deserializeAllIn, deserializeAll, hgram input h]

/-! ## Written files -/

/-- The call stack runs out while reading `s`. -/
def Over (s : Bytes) (d : De α) : Prop := ∀ rest, d (s ++ rest) = .panic .stackOverflow

theorem Over.bind_left {s₁ s₂ : Bytes} {d : De α} {f : α → De β} (h : Over s₁ d) : Over (s₁ ++ s₂) (d >>= f) := by
  intro rest
  rw [List.append_assoc, De.bind_apply, h]; rfl

theorem Over.bind_only {s : Bytes} {d : De α} {f : α → De β} (h : Over s d) : Over s (d >>= f) := by
  intro rest
  rw [De.bind_apply, h]; rfl

theorem Over.bind_right {s₁ s₂ : Bytes} {d : De α} {f : α → De β} {a : α} (h₁ : RT s₁ d a) (h₂ : Over s₂ (f a)) :
    Over (s₁ ++ s₂) (d >>= f) := by
  intro rest
  rw [List.append_assoc, De.bind_of_ok (h₁ _), h₂]

theorem Over.times {ser : α → Bytes} {de : De β} {f : α → β} (l : List α) :
    (∀ a ∈ l, RT (ser a) de (f a) ∨ Over (ser a) de) → (∃ a ∈ l, Over (ser a) de) →
    Over (l.flatMap ser) (De.times l.length de) := by
  induction l with
  | nil => rintro _ ⟨a, ha, _⟩; cases ha
  | cons a l ih =>
    intro h he
    simp only [List.flatMap_cons, List.length_cons, De.times]
    rcases h a (by simp) with h1 | h1
    · refine Over.bind_right h1 (Over.bind_only (ih (fun b hb => h b (by simp [hb])) ?_))
      obtain ⟨b, hb, hb'⟩ := he
      rcases List.mem_cons.1 hb with rfl | hb
      · have e1 := h1 []
        rw [hb' []] at e1
        cases e1
      · exact ⟨b, hb, hb'⟩
    · exact Over.bind_left h1

theorem GramNode.depth_le_succ {G : Type} {i : G} {w : F32} {l : List (GramNode G)} {d : Nat}
    (h : ∀ c ∈ l, c.depth ≤ d) : (GramNode.mk i w l).depth ≤ d + 1 := by
  have : ∀ (l' : List Nat) (b m : Nat), b ≤ m → (∀ a ∈ l', a ≤ m) → l'.foldl Nat.max b ≤ m := by
    intro l'
    induction l' with
    | nil => intro b m h _; exact h
    | cons x l' ih =>
      intro b m h1 h2
      exact ih _ m (Nat.max_le.2 ⟨h1, h2 x (by simp)⟩) fun a ha => h2 a (by simp [ha])
  rw [GramNode.depth]
  have := this (l.attach.map fun x => x.val.depth) 0 d (Nat.zero_le _) fun a ha => by
    obtain ⟨⟨c, hc⟩, _, rfl⟩ := List.mem_map.1 ha
    exact h c hc
  simp only [] at this ⊢
  omega

theorem deNodeIn_fit {t : Target} (n : GramNode Char) : Fits t (serNode n).length → ∀ stack, n.depth ≤ stack →
    RT (serNode n) (deNodeIn t stack) n := by
  refine GramNode.depth_induct (motive := fun n => Fits t (serNode n).length → ∀ stack, n.depth ≤ stack →
    RT (serNode n) (deNodeIn t stack) n) ?_ n
  intro i w l ih hf stack hd
  cases stack with
  | zero => rw [GramNode.depth] at hd; omega
  | succ stack =>
    rw [serNode_mk] at hf ⊢
    simp only [List.length_append] at hf
    refine RT.bind (deChar_rt i) ?_
    refine RT.bind (deF32_rt w) ?_
    refine RT.bind_pure ?_
    have := deVec_fit (t := t) (ser := serNode) (de := deNodeIn t stack) (f := id) l (hf.mono (by omega))
      (fun a _ => serNode_pos a) (fun a ha h => ih a ha h stack (by
        have := GramNode.depth_child (i := i) (w := w) ha
        omega))
    rwa [List.map_id] at this

theorem deNodeIn_over {t : Target} (n : GramNode Char) : Fits t (serNode n).length → ∀ stack, stack < n.depth →
    Over (serNode n) (deNodeIn t stack) := by
  refine GramNode.depth_induct (motive := fun n => Fits t (serNode n).length → ∀ stack, stack < n.depth →
    Over (serNode n) (deNodeIn t stack)) ?_ n
  intro i w l ih hf stack hd
  cases stack with
  | zero => intro rest; rfl
  | succ stack =>
    rw [serNode_mk] at hf ⊢
    simp only [List.length_append] at hf
    refine Over.bind_right (deChar_rt i) ?_
    refine Over.bind_right (deF32_rt w) ?_
    refine Over.bind_only ?_
    have h0 : ∃ c ∈ l, stack < c.depth := by
      apply Classical.byContradiction
      intro hne
      have := GramNode.depth_le_succ (i := i) (w := w) (l := l) (d := stack) fun c hc =>
        Nat.le_of_not_lt fun hlt => hne ⟨c, hc, hlt⟩
      omega
    have hlen : (serVec serNode l).length = (serUsize l.length).length + (l.flatMap serNode).length := by
      simp [serVec]
    have h1 := length_flatMap_ge (l := l) (ser := serNode) fun a _ => serNode_pos a
    have hfit : ∀ a ∈ l, Fits t (serNode a).length := fun a ha => hf.mono (by
      have := length_le_flatMap (ser := serNode) ha
      omega)
    refine Over.bind_right (deLen_rt (hf.mono (by omega)) _) ?_
    refine Over.times (f := id) l (fun a ha => ?_) ?_
    · rcases Nat.lt_or_ge stack a.depth with h | h
      · exact .inr (ih a ha (hfit a ha) stack h)
      · exact .inl (deNodeIn_fit a (hfit a ha) stack h)
    · obtain ⟨c, hc, hlt⟩ := h0
      exact ⟨c, hc, ih c hc (hfit c hc) stack hlt⟩

theorem deserializeAllIn_fit {t : Target} {n stack : Nat} (o : HashOrd) {ix : GramIndex Char} {cl : Classic}
    (hix : GramWf n ix) (hf : Fits t (serializeAll o ix cl).length) (rest : Bytes) :
    ((∀ e ∈ ix.roots, e.2.depth ≤ stack) →
      deserializeAllIn t n stack (serializeAll o ix cl ++ rest) = deserializeAll t n (serializeAll o ix cl ++ rest)) ∧
    ((∃ e ∈ ix.roots, stack < e.2.depth) →
      deserializeAllIn t n stack (serializeAll o ix cl ++ rest) = .panic .stackOverflow) := by
  simp only [serializeAll, serGramIndex, List.length_append] at hf
  obtain ⟨tail, e⟩ : ∃ tail, serializeAll o ix cl ++ rest =
      serContainer o ix.container ++ (serMap o "roots" serChar serNode ix.roots ++ tail) :=
    ⟨serUsize ix.data.length ++ ((o.order "data" ix.data).flatMap serPosting ++ (serClassic o cl ++ rest)),
      by simp only [serializeAll, serGramIndex, List.append_assoc]⟩
  rw [e]
  have hc := deContainer_fit (t := t) o hix.container (hf.mono (by omega)) (serMap o "roots" serChar serNode ix.roots ++ tail)
  have hm : RT (serMap o "roots" serChar serNode ix.roots) (deMap t deChar (deNodeTop t)) (o.order "roots" ix.roots) := by
    have := deMap_fit (t := t) o "roots" (serK := serChar) (serV := serNode) (deK := deChar)
      (deV := deNodeTop t) (f := id) ix.roots hix.roots (hf.mono (by omega))
      (fun p _ => serU64Loop_pos 9 _) (fun p _ _ => deChar_rt _) (fun p _ hh => deNodeTop_fit _ hh)
    simpa using this
  constructor
  · intro hd
    have hm' : RT (serMap o "roots" serChar serNode ix.roots) (deMap t deChar (deNodeIn t stack)) (o.order "roots" ix.roots) := by
      have := deMap_fit (t := t) o "roots" (serK := serChar) (serV := serNode) (deK := deChar)
        (deV := deNodeIn t stack) (f := id) ix.roots hix.roots (hf.mono (by omega))
        (fun p _ => serU64Loop_pos 9 _) (fun p _ _ => deChar_rt _) (fun p hp hh => deNodeIn_fit _ hh _ (hd p hp))
      simpa using this
    simp only [deserializeAllIn, deserializeAll, deGramIndexIn, deGramIndex, De.bind_of_ok hc, De.bind_of_ok (hm _),
      De.bind_of_ok (hm' _)]
  · rintro ⟨p, hp, hd⟩
    have hlen : (serMap o "roots" serChar serNode ix.roots).length = (serUsize (o.order "roots" ix.roots).length).length +
        ((o.order "roots" ix.roots).flatMap fun p => serChar p.1 ++ serNode p.2).length := by
      simp [serMap, serMapEntries]
    have h1 := length_flatMap_ge (l := o.order "roots" ix.roots) (ser := fun p => serChar p.1 ++ serNode p.2) fun a _ => by
      have := serNode_pos a.2
      simp only [List.length_append]; omega
    have hfit : ∀ a ∈ o.order "roots" ix.roots, Fits t (serNode a.2).length := fun a ha => hf.mono (by
      have := length_le_flatMap (ser := fun p : Char × GramNode Char => serChar p.1 ++ serNode p.2) ha
      simp only [List.length_append] at this
      omega)
    have hov : Over (serMap o "roots" serChar serNode ix.roots) (deMap t deChar (deNodeIn t stack)) := by
      refine Over.bind_right (deLen_rt (hf.mono (by omega)) _) (Over.bind_only ?_)
      refine Over.times (f := id) _ (fun a ha => ?_) ?_
      · rcases Nat.lt_or_ge stack a.2.depth with h | h
        · exact .inr (Over.bind_right (deChar_rt _) (Over.bind_only (deNodeIn_over _ (hfit a ha) _ h)))
        · exact .inl (RT.bind (deChar_rt _) (RT.bind_pure (f := fun v => (a.1, v)) (deNodeIn_fit _ (hfit a ha) _ h)))
      · have hpo := (o.perm "roots" ix.roots).mem_iff.2 hp
        exact ⟨p, hpo, Over.bind_right (deChar_rt _) (Over.bind_only (deNodeIn_over _ (hfit p hpo) _ hd))⟩
    have : deGramIndexIn t n stack (serContainer o ix.container ++ (serMap o "roots" serChar serNode ix.roots ++ tail)) =
        .panic .stackOverflow := by
      simp only [deGramIndexIn, De.bind_of_ok hc]
      rw [De.bind_apply, hov]; rfl
    simp only [deserializeAllIn, this]; rfl

/-! ## Depth of a built tree -/

theorem GramNode.depth_cases {G : Type} {m : GramNode G} {d : Nat} (h : d + 1 < m.depth) : ∃ c ∈ m.byOcc, d < c.depth := by
  cases m with
  | mk i w l =>
    apply Classical.byContradiction
    intro hne
    have := GramNode.depth_le_succ (i := i) (w := w) (l := l) (d := d) fun c hc =>
      Nat.le_of_not_lt fun hlt => hne ⟨c, hc, hlt⟩
    omega

theorem has_deep {ix : GramIndex G} {path : List G} {m : GramNode G} (h : ix.Has path m) :
    ∀ d, d < m.depth → ∃ path' m', ix.Has path' m' ∧ path'.length = path.length + d := by
  intro d
  induction d generalizing path m with
  | zero => intro _; exact ⟨path, m, h, rfl⟩
  | succ d ih =>
    intro hd
    obtain ⟨c, hc, hlt⟩ := GramNode.depth_cases hd
    obtain ⟨p', m', h1, h2⟩ := ih (h.child hc) hlt
    exact ⟨p', m', h1, by simp only [List.length_append, List.length_cons, List.length_nil] at h2; omega⟩

theorem deep_has {ix : GramIndex G} {path : List G} {m : GramNode G} (h : ix.Has path m) :
    ∃ e ∈ ix.roots, path.length + m.depth ≤ e.2.depth + 1 := by
  induction h with
  | root h => exact ⟨_, h, by simp; omega⟩
  | child h hc ih =>
    obtain ⟨e, he, hle⟩ := ih
    refine ⟨e, he, ?_⟩
    rename_i path m c
    have : c.depth < m.depth := by cases m; exact GramNode.depth_child hc
    simp only [List.length_append, List.length_cons, List.length_nil]
    omega

/-- Loading a written file, followed by anything, needs exactly as many nested calls as the longest text has
characters, at most N: with room for them the outcome is that of `deserialize_all`, with less the stack overflows. -/
theorem C78_written {t t' : Target} {o : HashOrd} {lower : Char → List Char} {parse : Str → Option F32} {n : Nat}
    {input : List RawProduct} {ix : GramIndex Char} {cl : Classic} (hn : 1 ≤ n)
    (h : buildAll t o lower parse n input = .ok (ix, cl)) (hf : Fits t' (serializeAll o ix cl).length)
    (stack : Nat) (rest : Bytes) :
    ((∀ raw ∈ input, min n (textOf lower raw).length ≤ stack) →
      ∃ loaded, deserializeAllIn t' n stack (serializeAll o ix cl ++ rest) = .ok loaded ∧
        deserializeAll t' n (serializeAll o ix cl ++ rest) = .ok loaded) ∧
    ((∃ raw ∈ input, stack < min n (textOf lower raw).length) →
      deserializeAllIn t' n stack (serializeAll o ix cl ++ rest) = .panic .stackOverflow) := by
  have hix := gramWf_of_built hn h
  obtain ⟨h1, h2⟩ := deserializeAllIn_fit (stack := stack) (cl := cl) o hix hf rest
  obtain ⟨prices, b⟩ := (builtAll_of_ok h).built
  constructor
  · intro hall
    have hok := deserializeAll_fit (t := t') o hix (b.classicWf (buildAll_container h)) hf rest
    refine ⟨_, (h1 ?_).trans hok, hok⟩
    intro e he
    apply Nat.le_of_not_lt
    intro hlt
    obtain ⟨path, m, hm, hlen⟩ := has_deep (.root (g := e.1) (r := e.2) he) stack hlt
    simp only [List.length_cons, List.length_nil] at hlen
    obtain ⟨hle, raw, hraw, hin⟩ := (C21_path_iff_substring hn h path (by rintro rfl; simp at hlen; omega)).1 ⟨m, hm⟩
    have := hall raw hraw
    have := hin.length_le
    omega
  · rintro ⟨raw, hraw, hlt⟩
    apply h2
    have hlen : ((textOf lower raw).take (stack + 1)).length = stack + 1 := by
      rw [List.length_take]; omega
    obtain ⟨m, hm⟩ := (C21_path_iff_substring hn h ((textOf lower raw).take (stack + 1)) (by
      intro e; rw [e] at hlen; simp at hlen)).2 ⟨by omega, raw, hraw, (List.take_prefix _ _).isInfix⟩
    obtain ⟨e, he, hle⟩ := deep_has hm
    refine ⟨e, he, ?_⟩
    have : 1 ≤ m.depth := by cases m; rw [GramNode.depth]; omega
    omega

/-- So N nested calls load every file written with window length N. -/
theorem C78_window {t t' : Target} {o : HashOrd} {lower : Char → List Char} {parse : Str → Option F32} {n : Nat}
    {input : List RawProduct} {ix : GramIndex Char} {cl : Classic} (hn : 1 ≤ n)
    (h : buildAll t o lower parse n input = .ok (ix, cl)) (hf : Fits t' (serializeAll o ix cl).length) (rest : Bytes) :
    ∃ loaded, deserializeAllIn t' n n (serializeAll o ix cl ++ rest) = .ok loaded ∧
      deserializeAll t' n (serializeAll o ix cl ++ rest) = .ok loaded :=
  (C78_written hn h hf n rest).1 fun _ _ => Nat.min_le_left _ _

/-! ## Crafted files -/

/-- A file without products whose tree is a single branch of `d + 1` nodes `a`. -/
def branchFile (d : Nat) : Bytes :=
  [0, 0, 0, 1, 97] ++ (List.replicate d ([97, 0, 0, 0, 0, 1] : Bytes)).flatten ++ [97, 0, 0, 0, 0, 0] ++ [0, 0, 0, 0]

def branch : Nat → GramNode Char
  | 0 => .mk 'a' ⟨0⟩ []
  | d + 1 => .mk 'a' ⟨0⟩ [branch d]

theorem branch_depth : ∀ d, (branch d).depth = d + 1 := by
  intro d
  induction d with
  | zero => simp [branch, GramNode.depth]
  | succ d ih => simp [branch, GramNode.depth, ih]; omega

theorem serNode_branch : ∀ d, serNode (branch d) =
    (List.replicate d ([97, 0, 0, 0, 0, 1] : Bytes)).flatten ++ [97, 0, 0, 0, 0, 0] := by
  intro d
  induction d with
  | zero => rw [branch, serNode_mk]; decide +kernel
  | succ d ih =>
    rw [branch, serNode_mk]
    simp only [serVec, List.flatMap_cons, List.flatMap_nil, List.append_nil, ih, List.replicate_succ, List.flatten_cons,
      List.length_cons, List.length_nil]
    rw [← List.append_assoc, ← List.append_assoc, ← List.append_assoc]
    congr 2

def branchIndex (d : Nat) : GramIndex Char := { container := ⟨[], ⟨[], []⟩, []⟩, roots := [('a', branch d)], data := [] }

theorem branchFile_eq (d : Nat) : branchFile d = serializeAll .ident (branchIndex d) ⟨[], [], []⟩ := by
  have e : serializeAll .ident (branchIndex d) ⟨[], [], []⟩ =
      serContainer .ident (branchIndex d).container ++ (serUsize 1 ++ (serChar 'a' ++ (serNode (branch d) ++
        (serUsize 0 ++ serClassic .ident ⟨[], [], []⟩)))) := by
    simp [serializeAll, serGramIndex, serMap, serMapEntries, branchIndex, HashOrd.ident]
  have e1 : serContainer .ident (branchIndex d).container ++ (serUsize 1 ++ serChar 'a') = [0, 0, 0, 1, 97] := by
    simp only [branchIndex]; decide +kernel
  have e2 : serUsize 0 ++ serClassic .ident ⟨[], [], []⟩ = [0, 0, 0, 0] := by decide +kernel
  rw [e, e2, serNode_branch, branchFile, ← e1]
  simp only [List.append_assoc]

/-- For every bound on the call stack there is a file of `6 * stack + 15` bytes, without any product, that loads
under `deserialize_all`, and with room for one more call, but overflows that stack. -/
theorem C78_crafted (t : Target) (n stack : Nat) (hf : Fits t (6 * stack + 15)) :
    (branchFile stack).length = 6 * stack + 15 ∧ (∃ loaded, deserializeAll t n (branchFile stack) = .ok loaded ∧
        deserializeAllIn t n (stack + 1) (branchFile stack) = .ok loaded) ∧
      deserializeAllIn t n stack (branchFile stack) = .panic .stackOverflow := by
  have hlen : (branchFile stack).length = 6 * stack + 15 := by
    simp only [branchFile, List.length_append, List.length_flatten, List.map_replicate, List.length_cons, List.length_nil,
      List.sum_replicate_nat]
    omega
  have hwf : GramWf n (branchIndex stack) :=
    ⟨⟨⟨by simp [branchIndex], by simp [branchIndex], by simp [branchIndex]⟩, by simp [branchIndex],
      by simp [branchIndex], by simp [branchIndex, AMap.Wf]⟩, by simp [branchIndex, AMap.Wf], by simp [branchIndex, AMap.Wf],
      by simp [branchIndex]⟩
  have hcl : ClassicWf (branchIndex stack).container ⟨[], [], []⟩ := by
    constructor <;> simp [AMap.Wf]
  rw [← hlen, branchFile_eq] at hf
  refine ⟨hlen, ?_, ?_⟩
  · have h1 := deserializeAll_fit (t := t) .ident hwf hcl hf []
    have h2 := (deserializeAllIn_fit (t := t) (stack := stack + 1) (cl := ⟨[], [], []⟩) .ident hwf hf []).1 (by
      simp [branchIndex, branch_depth])
    rw [List.append_nil] at h1 h2
    rw [branchFile_eq]
    exact ⟨_, h1, h2.trans h1⟩
  · have := (deserializeAllIn_fit (t := t) (stack := stack) (cl := ⟨[], [], []⟩) .ident hwf hf []).2
      ⟨('a', branch stack), by simp [branchIndex], by rw [branch_depth]; omega⟩
    rw [List.append_nil] at this
    rw [branchFile_eq]; exact this

/-- The hypothesis of `C78_crafted` holds on wasm32 for a stack of a million calls. -/
example : Fits .wasm32 (6 * 1000000 + 15) := Fits.of_carried ⟨by decide, by decide⟩ fun _ _ => rfl

set_option maxRecDepth 10000 in
/-- The hypotheses of `C78_written` are met by a product whose text is "abc": with N = 2 two calls are needed and enough. -/
example : ∃ ix cl, buildAll .debug64 .ident (fun c => [c]) parseOne 2 [mkRaw ['a'] ['b', 'c'] ['1']] = .ok (ix, cl) ∧
    Fits .wasm32 (serializeAll .ident ix cl).length ∧
    min 2 (textOf (fun c => [c]) (mkRaw ['a'] ['b', 'c'] ['1'])).length = 2 ∧
    deserializeAllIn .wasm32 2 1 (serializeAll .ident ix cl) = .panic .stackOverflow := by
  have h : ((runFile .debug64 parseOne 2 [mkRaw ['a'] ['b', 'c'] ['1']]).map fun b => decide (b.length < 1000)) =
      some true := by decide +kernel
  obtain ⟨b, hb, h2⟩ := Option.map_eq_some_iff.1 h
  rw [decide_eq_true_eq] at h2
  obtain ⟨ix, cl, h3, h4, _⟩ := runFile_sound (by decide) (by decide) hb
  have hf : Fits .wasm32 (serializeAll .ident ix cl).length := by
    rw [h4]
    exact Fits.of_carried ⟨Nat.lt_trans h2 (by decide), Nat.lt_trans h2 (by decide)⟩ fun _ _ => rfl
  have := (C78_written (by decide) h3 hf 1 []).2 ⟨_, List.mem_singleton.2 rfl, by decide⟩
  rw [List.append_nil] at this
  exact ⟨ix, cl, h3, hf, by decide, this⟩

end Idx
