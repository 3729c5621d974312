import Verif.Model.Smoothing
import Verif.Spec.Smoothing
import Verif.Lemmas.Options
import Verif.Lemmas.MeshQueries
import Verif.Props.Bootstrap
import Verif.Props.PiecewiseLinear
import Verif.Props.TriangulationReader
import Mathlib.Data.List.Forall2

/-!
# C181: the tool `piecewise_linear_function_smoothing`
-/

namespace Aleph.Pl

open Spec

variable {α : Type} [LinearOrder α] [Field α] [IsStrictOrderedRing α]

omit [IsStrictOrderedRing α] in
theorem eval_nil (x : α) : eval ([] : Fn α) x = 0 := rfl

theorem eval_outside {f : Fn α} (hf : Ascending f) {x : α} (h : ¬InDomain f x) : eval f x = 0 := eval_eq_of hf (.inr (.inr ⟨h, rfl⟩))

/-- The sum with the function without points. -/
theorem add_nil {g : Fn α} (hg : Ascending g) : Ascending (add [] g) ∧ (∀ x, InDomain (add [] g) x ↔ InDomain g x) ∧ ∀ x, eval (add [] g) x = eval g x := by
  have hdom : ∀ x, InDomain (add [] g) x ↔ InDomain g x := fun x => by rw [add, apply_domain]; rfl
  have hasc : Ascending (add [] g) := apply_ascending _ _ _
  refine ⟨hasc, hdom, fun x => ?_⟩
  by_cases hx : InDomain g x
  · refine eval_eq_of hasc ?_
    rcases eval_value hasc x with h | ⟨p, q, hn, h1, h2, -⟩ | ⟨h, -⟩
    · refine .inl ((mem_apply _ _ g _).2 ⟨((mem_apply _ _ g _).1 h).1, ?_⟩)
      simp [eval_nil]
    · right; left
      refine ⟨p, q, hn, h1, h2, ?_⟩
      obtain ⟨n, hn'⟩ := apply_affine hn h1 h2 hg (fun r hr => (mem_merged _ _ _).2 (.inr ⟨r, hr, rfl⟩)) hx
      rw [((mem_apply _ _ g p).1 hn.1).2, ((mem_apply _ _ g q).1 hn.2.1).2, hn' x h1.le h2.le, hn' q.1 hn.2.2.1.le le_rfl, eval_nil, eval_nil]
      ring
    · exact absurd ((hdom x).2 hx) h
  · rw [eval_outside hg hx, eval_outside hasc (fun h => hx ((hdom x).1 h))]

theorem apply_same_domain (op : α → α → α) {f g : Fn α} (hd : ∀ x, InDomain f x ↔ InDomain g x) (x : α) : InDomain (apply op f g) x ↔ InDomain f x := by
  rw [apply_domain]
  have hin : ∀ p ∈ f ++ g, InDomain f p.1 := by
    intro p hp
    rcases List.mem_append.1 hp with h | h
    · exact ⟨⟨p, h, le_rfl⟩, ⟨p, h, le_rfl⟩⟩
    · exact (hd _).2 ⟨⟨p, h, le_rfl⟩, ⟨p, h, le_rfl⟩⟩
  constructor
  · rintro ⟨⟨p, hp, h1⟩, ⟨q, hq, h2⟩⟩
    obtain ⟨a, ha, ha'⟩ := (hin p hp).1
    obtain ⟨b, hb, hb'⟩ := (hin q hq).2
    exact ⟨⟨a, ha, ha'.trans h1⟩, ⟨b, hb, h2.trans hb'⟩⟩
  · rintro ⟨⟨p, hp, h1⟩, ⟨q, hq, h2⟩⟩
    exact ⟨⟨p, by simp [hp], h1⟩, ⟨q, by simp [hq], h2⟩⟩

/-- The sum of two functions with the same domain. -/
theorem add_same {f g : Fn α} (hf : Ascending f) (hg : Ascending g) (hd : ∀ x, InDomain f x ↔ InDomain g x) :
    Ascending (add f g) ∧ (∀ x, InDomain (add f g) x ↔ InDomain f x) ∧ ∀ x, eval (add f g) x = eval f x + eval g x := by
  have hasc : Ascending (add f g) := apply_ascending _ _ _
  have hdom : ∀ x, InDomain (add f g) x ↔ InDomain f x := apply_same_domain _ hd
  refine ⟨hasc, hdom, fun x => ?_⟩
  by_cases hx : InDomain f x
  · exact ((C42_sum f g hf hg).2.2.1 x hx ((hd x).1 hx)).1
  · rw [eval_outside hf hx, eval_outside hg (fun h => hx ((hd x).2 h)), eval_outside hasc (fun h => hx ((hdom x).1 h)), add_zero]

/-- The domain of a function that was constructed from points. -/
theorem construct_domain {l : List (α × α)} {f : Fn α} (h : construct l = some f) (x : α) : InDomain f x ↔ InDomain l x := by
  have hnd : (l.map Prod.fst).Nodup := by
    by_contra hn
    rw [(C42_construction l).2 hn] at h
    cases h
  obtain ⟨g, h1, hg, h3⟩ := construct_base l [] List.Pairwise.nil hnd (by simp)
  have hf : f = insertIntersectionPoints g := by
    rw [construct, h1] at h
    exact (Option.some.inj h).symm
  have hmem : ∀ p, p ∈ g ↔ p ∈ l := fun p => by simp [h3 p]
  have key : ∀ (zs : List α) (k : Fn α) (p : α × α), p ∈ zs.foldl (fun f x => mapInsert (x, 0) f) k → p ∈ k ∨ p.1 ∈ zs := by
    intro zs
    induction zs with
    | nil => exact fun k p hp => .inl hp
    | cons z zs ih =>
      intro k p hp
      rcases ih _ p hp with h | h
      · rcases mem_mapInsert h with rfl | h
        · exact .inr (by simp)
        · exact .inl h
      · exact .inr (by simp [h])
  have hbetween : ∀ p ∈ f, InDomain l p.1 := by
    intro p hp
    rw [hf] at hp
    rcases key _ _ p hp with h | h
    · exact ⟨⟨p, (hmem p).1 h, le_rfl⟩, ⟨p, (hmem p).1 h, le_rfl⟩⟩
    · obtain ⟨a, b, hn, hlt, he⟩ := (mem_crossings hg).1 h
      obtain ⟨b1, b2⟩ := crossing_between hn.2.2.1 hlt
      rw [he]
      exact ⟨⟨a, (hmem a).1 hn.1, b1.le⟩, ⟨b, (hmem b).1 hn.2.1, b2.le⟩⟩
  constructor
  · rintro ⟨⟨p, hp, h1⟩, ⟨q, hq, h2⟩⟩
    obtain ⟨a, ha, ha'⟩ := (hbetween p hp).1
    obtain ⟨b, hb, hb'⟩ := (hbetween q hq).2
    exact ⟨⟨a, ha, ha'.trans h1⟩, ⟨b, hb, h2.trans hb'⟩⟩
  · rintro ⟨⟨p, hp, h1⟩, ⟨q, hq, h2⟩⟩
    have hsub := (insertIntersectionPoints_spec hg).2.2.1
    exact ⟨⟨p, hf ▸ hsub p ((hmem p).2 hp), h1⟩, ⟨q, hf ▸ hsub q ((hmem q).2 hq), h2⟩⟩

omit [IsStrictOrderedRing α] in
theorem valueAt_congr {f g : List (α × α)} (h : ∀ p, p ∈ f ↔ p ∈ g) (x y : α) : ValueAt f x y ↔ ValueAt g x y := by
  simp only [ValueAt, Neighbours, InDomain, h]

omit [IsStrictOrderedRing α] in
/-- Values are unique, also if the points are given in another order. -/
theorem value_unique_nodup {l : List (α × α)} (hnd : (l.map Prod.fst).Nodup) {x y y' : α} (h : ValueAt l x y) (h' : ValueAt l x y') : y = y' := by
  obtain ⟨g, h1, h2, h3⟩ := construct_base l [] List.Pairwise.nil hnd (by simp)
  have hmem : ∀ p, p ∈ l ↔ p ∈ g := fun p => by simp [h3 p]
  exact value_unique h2 ((valueAt_congr hmem _ _).1 h) ((valueAt_congr hmem _ _).1 h')

end Aleph.Pl

namespace Aleph.Smoothing

open Spec Pl Bootstrap
open Triangulation (Content Ignored)

/-! ### Files -/

section Files

variable {α : Type}

theorem ignored_iff (l : List Char) : Ignored l ↔ ((Strings.trim l).isEmpty || (Strings.trim l).head? == some '#') = true := by
  rw [Bool.or_eq_true, List.isEmpty_iff, beq_iff_eq]
  constructor
  · rintro ⟨t, ht, h⟩
    rw [TriangulationReader.trim_content ht]
    exact h
  · intro h
    exact ⟨_, TriangulationReader.content_exists l, h⟩

theorem loadLine_iff (scan : List Char → Option (α × α)) (l : List Char) (entry : Option (α × α)) : loadLine scan l = some entry ↔ FunctionLine scan l entry := by
  unfold loadLine FunctionLine
  by_cases h : Ignored l
  · simp only [if_pos ((ignored_iff l).1 h), h, true_and, not_true_eq_false, false_and, or_false, Option.some.injEq]
    exact eq_comm
  · simp only [if_neg (fun h' => h ((ignored_iff l).2 h')), h, false_and, not_false_eq_true, true_and, false_or, Option.map_eq_some_iff]
    constructor
    · rintro ⟨p, h1, h2⟩
      exact ⟨_, p, TriangulationReader.content_exists l, h1, h2.symm⟩
    · rintro ⟨t, p, ht, h1, h2⟩
      rw [TriangulationReader.trim_content ht]
      exact ⟨p, h1, h2.symm⟩

theorem mapM_iff {β γ : Type} (f : β → Option γ) (l : List β) (r : List γ) : l.mapM f = some r ↔ List.Forall₂ (fun a b => f a = some b) l r := by
  induction l generalizing r with
  | nil => simp [pure, eq_comm]
  | cons a l ih =>
    rw [List.mapM_cons]
    constructor
    · intro h
      cases e : f a with
      | none => simp [e] at h
      | some b =>
        cases e' : l.mapM f with
        | none => simp [e, e'] at h
        | some r' =>
          simp only [e, e', Option.bind_eq_bind, Option.bind_some, pure, Option.some.injEq] at h
          rw [← h]
          exact .cons e ((ih r').1 e')
    · intro h
      cases h with
      | cons h1 h2 =>
        rw [h1, (ih _).2 h2]
        rfl

theorem load_iff [LinearOrder α] [Field α] (scan : List Char → Option (α × α)) (file : Option (List Char)) (f : Fn α) :
    load scan file = some f ↔ ∃ points, IsFunctionFile scan file points ∧ construct points = some f := by
  have hall : ∀ (ls : List (List Char)) (entries : List (Option (α × α))), ls.mapM (loadLine scan) = some entries ↔ List.Forall₂ (FunctionLine scan) ls entries := by
    intro ls entries
    rw [mapM_iff]
    exact ⟨fun h => h.imp fun _ _ => (loadLine_iff _ _ _).1, fun h => h.imp fun _ _ => (loadLine_iff _ _ _).2⟩
  unfold load
  simp only [Option.bind_eq_bind, Option.bind_eq_some_iff]
  constructor
  · rintro ⟨text, h1, entries, h2, h3⟩
    obtain ⟨ls, b, hl⟩ := lines_exist text
    rw [getlines_spec text ls b hl] at h2
    exact ⟨_, ⟨text, ls, b, entries, h1, hl, (hall _ _).1 h2, rfl⟩, h3⟩
  · rintro ⟨points, ⟨text, ls, b, entries, h1, hl, h2, rfl⟩, h3⟩
    refine ⟨text, h1, entries, ?_, h3⟩
    rw [getlines_spec text ls b hl]
    exact (hall _ _).2 h2

end Files

/-! ### Means -/

section Means

variable {α : Type} [LinearOrder α] [Field α] [IsStrictOrderedRing α]

theorem sum_same {fs : List (Fn α)} (D : α → Prop) (h : ∀ f ∈ fs, Ascending f ∧ ∀ x, InDomain f x ↔ D x) (acc : Fn α) (ha : Ascending acc) (hd : ∀ x, InDomain acc x ↔ D x) :
    Ascending (fs.foldl add acc) ∧ (∀ x, InDomain (fs.foldl add acc) x ↔ D x) ∧ ∀ x, eval (fs.foldl add acc) x = eval acc x + (fs.map fun f => eval f x).sum := by
  induction fs generalizing acc with
  | nil => exact ⟨ha, hd, by simp⟩
  | cons f fs ih =>
    obtain ⟨hf1, hf2⟩ := h f (by simp)
    obtain ⟨k1, k2, k3⟩ := add_same ha hf1 fun x => (hd x).trans (hf2 x).symm
    obtain ⟨i1, i2, i3⟩ := ih (fun g hg => h g (by simp [hg])) (add acc f) k1 fun x => (k2 x).trans (hd x)
    refine ⟨i1, i2, fun x => ?_⟩
    rw [List.foldl_cons, i3, k3, List.map_cons, List.sum_cons, add_assoc]

theorem mean_spec {fs : List (Fn α)} (hne : fs ≠ []) (D : α → Prop) (h : ∀ f ∈ fs, Ascending f ∧ ∀ x, InDomain f x ↔ D x) :
    ∃ m, mean fs = some m ∧ Ascending m ∧ (∀ x, InDomain m x ↔ D x) ∧ ∀ x, eval m x * (fs.length : α) = (fs.map fun f => eval f x).sum := by
  cases fs with
  | nil => exact absurd rfl hne
  | cons f fs =>
    obtain ⟨hf1, hf2⟩ := h f (by simp)
    obtain ⟨k1, k2, k3⟩ := add_nil hf1
    obtain ⟨i1, i2, i3⟩ := sum_same (fs := fs) D (fun g hg => h g (by simp [hg])) (add [] f) k1 fun x => (k2 x).trans (hf2 x)
    have hn : ((f :: fs).length : α) ≠ 0 := by
      rw [List.length_cons]
      exact Nat.cast_ne_zero.2 (Nat.succ_ne_zero fs.length)
    have hs := C42_scalars ((f :: fs).foldl add []) i1
    have hsm := (hs ((f :: fs).length : α)⁻¹).1 (smul ((f :: fs).foldl add []) ((f :: fs).length : α)⁻¹) (fun y => y * ((f :: fs).length : α)⁻¹) (by simp)
    refine ⟨_, (hs _).2.1 hn, hsm.1, fun x => ?_, fun x => ?_⟩
    · exact (map_domain _ (fun y => y * ((f :: fs).length : α)⁻¹) x).trans (i2 x)
    · have hval : eval ((f :: fs).foldl add []) x = ((f :: fs).map fun f => eval f x).sum := by
        rw [List.foldl_cons, i3, k3, List.map_cons, List.sum_cons]
      by_cases hx : InDomain ((f :: fs).foldl add []) x
      · rw [(hsm.2 x).1 hx, hval, inv_mul_cancel_right₀ hn]
      · rw [(hsm.2 x).2 hx, zero_mul, ← hval]
        exact (eval_outside i1 hx).symm

/-- The functions that are loaded, in terms of their points. -/
theorem meanAt_iff {functions : List (List (α × α))} {fs : List (Fn α)} (h : List.Forall₂ (fun l f => construct l = some f) functions fs) (x y : α) :
    IsMeanAt functions x y ↔ y * (functions.length : α) = (fs.map fun f => eval f x).sum := by
  have hv : ∀ values, List.Forall₂ (fun l v => ValueAt l x v) functions values ↔ values = fs.map fun f => eval f x := by
    induction h with
    | nil =>
      intro values
      simp
    | @cons l f ls fs hl _ ih =>
      intro values
      have hnd : (l.map Prod.fst).Nodup := by
        by_contra hn
        rw [(C42_construction l).2 hn] at hl
        cases hl
      have hvf : ValueAt l x (eval f x) := by
        obtain ⟨f', h1, -, -, -, h2⟩ := (C42_construction l).1 hnd
        rw [h1] at hl
        rw [← Option.some.inj hl]
        exact h2 x
      constructor
      · intro hh
        cases hh with
        | cons h1 h2 => rw [(ih _).1 h2, value_unique_nodup hnd h1 hvf, List.map_cons]
      · intro hh
        rw [hh, List.map_cons]
        exact .cons hvf ((ih _).2 rfl)
  unfold IsMeanAt
  constructor
  · rintro ⟨values, h1, h2⟩
    rw [h2, (hv _).1 h1]
  · intro hy
    exact ⟨_, (hv _).2 rfl, hy⟩

/-- Families of functions with the same domain. -/
structure Family (functions : List (List (α × α))) (fs : List (Fn α)) (D : α → Prop) : Prop where
  built : List.Forall₂ (fun l f => construct l = some f) functions fs
  domain : ∀ l ∈ functions, ∀ x, InDomain l x ↔ D x

theorem Family.fns {functions : List (List (α × α))} {fs : List (Fn α)} {D : α → Prop} (h : Family functions fs D) : ∀ f ∈ fs, Ascending f ∧ ∀ x, InDomain f x ↔ D x := by
  obtain ⟨h1, h2⟩ := h
  induction h1 with
  | nil => simp
  | @cons l f ls fs hl _ ih =>
    intro g hg
    rcases List.mem_cons.1 hg with rfl | hg
    · refine ⟨?_, fun x => (construct_domain hl x).trans (h2 l (by simp) x)⟩
      have hnd : (l.map Prod.fst).Nodup := by
        by_contra hn
        rw [(C42_construction l).2 hn] at hl
        cases hl
      obtain ⟨f', k1, k2, -⟩ := (C42_construction l).1 hnd
      rw [k1] at hl
      rw [← Option.some.inj hl]
      exact k2
    · exact ih (fun l' hl' => h2 l' (by simp [hl'])) g hg

theorem Family.mean {functions : List (List (α × α))} {fs : List (Fn α)} {D : α → Prop} (h : Family functions fs D) (hne : functions ≠ []) :
    ∃ m, Smoothing.mean fs = some m ∧ Ascending m ∧ (∀ x, InDomain m x ↔ D x) ∧ ∀ x y, IsMeanAt functions x y ↔ y = eval m x := by
  have hlen := h.built.length_eq
  have hne' : fs ≠ [] := by
    rintro rfl
    exact hne (List.eq_nil_of_length_eq_zero hlen)
  obtain ⟨m, h1, h2, h3, h4⟩ := mean_spec hne' D h.fns
  refine ⟨m, h1, h2, h3, fun x y => ?_⟩
  have hn : (fs.length : α) ≠ 0 := by
    have := List.length_pos_iff.2 hne'
    exact_mod_cast this.ne'
  rw [meanAt_iff h.built, ← h4, hlen]
  exact mul_left_inj' hn

omit [IsStrictOrderedRing α] in
theorem Family.resample {functions : List (List (α × α))} {fs : List (Fn α)} {D : α → Prop} (h : Family functions fs D) {draw : ℕ → ℕ} (hd : ∀ i, draw i < functions.length) :
    Family (resample draw functions) (resample draw fs) D := by
  have hlen := h.built.length_eq
  refine ⟨?_, fun l hl => h.domain l ((resample_mapM hd).2.2 l hl)⟩
  unfold Spec.resample
  rw [← hlen]
  generalize List.range functions.length = is
  induction is with
  | nil => exact .nil
  | cons i is ih =>
    have h1 : functions[draw i]? = some (functions[draw i]'(hd i)) := List.getElem?_eq_getElem (hd i)
    have h2 : fs[draw i]? = some (fs[draw i]'(hlen ▸ hd i)) := List.getElem?_eq_getElem _
    rw [List.filterMap_cons, List.filterMap_cons, h1, h2]
    exact .cons (h.built.get (hd i) (hlen ▸ hd i)) ih

end Means

/-! ### Deviations -/

/-- The deviation of a replicate is bounded if and only if the means differ by a bounded amount. -/
theorem deviation_iff {functions sample : List (List (ℝ × ℝ))} {m r : Fn ℝ} {D : ℝ → Prop} (hm : Ascending m) (hr : Ascending r) (hmd : ∀ x, InDomain m x ↔ D x) (hrd : ∀ x, InDomain r x ↔ D x)
    (hD : ∃ x, D x) (h1 : ∀ x y, IsMeanAt functions x y ↔ y = eval m x) (h2 : ∀ x y, IsMeanAt sample x y ↔ y = eval r x) (lowest : ℝ) (hlow : lowest ≤ 0) (n : ℕ) (hn : 0 < n) (q : ℝ) :
    (MeansWithin functions sample (q / √(n : ℝ)) ↔ deviation lowest n m r ≤ q) ∧ ((∃ q' < q / √(n : ℝ), MeansWithin functions sample q') ↔ deviation lowest n m r < q) ∧ 0 ≤ deviation lowest n m r := by
  have hs : 0 < √(n : ℝ) := Real.sqrt_pos.2 (by exact_mod_cast hn)
  unfold deviation
  generalize √(n : ℝ) = s at hs ⊢
  have hrm : ∀ x, InDomain r x ↔ InDomain m x := fun x => (hrd x).trans (hmd x).symm
  obtain ⟨hno, hdist⟩ := C42_distance r m hr hm hrm
  have hsub : Ascending (sub r m) := apply_ascending _ _ _
  have habs := (C42_abs (sub r m) hsub hno).1
  have hsm := (C42_scalars (Pl.abs (sub r m)) habs s).1 (smul (Pl.abs (sub r m)) s) (fun y => y * s) (by simp)
  have he : Pl.abs (smul (sub r m) s) = smul (Pl.abs (sub r m)) s := by
    simp [Pl.abs, smul, abs_mul, abs_of_pos hs]
  have hdom : ∀ x, InDomain (smul (Pl.abs (sub r m)) s) x ↔ D x := fun x =>
    ((map_domain _ (fun y => y * s) x).trans (map_domain _ (fun y => |y|) x)).trans ((apply_same_domain _ hrm x).trans (hrd x))
  have hval : ∀ x, D x → eval (smul (Pl.abs (sub r m)) s) x = |eval r x - eval m x| * s := by
    intro x hx
    rw [(hsm.2 x).1 ((map_domain _ (fun y => y * s) x).1 ((hdom x).2 hx)), hdist]
  have hnn : ∀ p ∈ smul (Pl.abs (sub r m)) s, 0 ≤ p.2 := by
    intro p hp
    rw [← he] at hp
    obtain ⟨p', -, rfl⟩ := List.mem_map.1 hp
    exact abs_nonneg _
  have hne : smul (Pl.abs (sub r m)) s ≠ [] := by
    obtain ⟨x, hx⟩ := hD
    obtain ⟨⟨p, hp, -⟩, -⟩ := (hdom x).2 hx
    exact List.ne_nil_of_mem hp
  obtain ⟨⟨x0, hx0, hmax⟩, hle⟩ := C42_maximum lowest _ hsm.1 (fun p hp => hlow.trans (hnn p hp)) hne
  rw [he]
  generalize Pl.max lowest (smul (Pl.abs (sub r m)) s) = M at hmax hle ⊢
  rw [hval x0 ((hdom x0).1 hx0)] at hmax
  have hM : 0 ≤ M := hmax ▸ mul_nonneg (abs_nonneg _) hs.le
  have key : ∀ t, MeansWithin functions sample t ↔ M ≤ t * s := by
    intro t
    constructor
    · intro h
      rw [← hmax]
      exact mul_le_mul_of_nonneg_right (h x0 _ _ ((h1 _ _).2 rfl) ((h2 _ _).2 rfl)) hs.le
    · intro h x y z hy hz
      rw [(h1 _ _).1 hy, (h2 _ _).1 hz]
      refine le_of_mul_le_mul_right ?_ hs
      by_cases hx : D x
      · have := hle x ((hdom x).2 hx)
        rw [hval x hx] at this
        exact this.trans h
      · rw [eval_outside hr fun h' => hx ((hrd x).1 h'), eval_outside hm fun h' => hx ((hmd x).1 h'), sub_zero, abs_zero, zero_mul]
        exact hM.trans h
  refine ⟨?_, ?_, hM⟩
  · rw [key, div_mul_cancel₀ _ hs.ne']
  · constructor
    · rintro ⟨t, ht, hw⟩
      rw [lt_div_iff₀ hs] at ht
      exact ((key t).1 hw).trans_lt ht
    · intro h
      exact ⟨M / s, div_lt_div_of_pos_right h hs, (key _).2 (by rw [div_mul_cancel₀ _ hs.ne'])⟩

/-! ### Options -/

/-- The argument of an option for the level. -/
def Opt.alphaWord : Opt → Option (List Char)
  | .alpha w => some w
  | _ => none

/-- The argument of an option for the number of samples. -/
def Opt.samplesWord : Opt → Option (List Char)
  | .samples w => some w
  | _ => none

/-- Options whose arguments are not numbers. -/
def Bad (c : Context) : Opt → Prop
  | .alpha w => c.stod w = none
  | .samples w => c.stoull w = none
  | .unknown => False

theorem settings_spec (c : Context) {opts : List Opt} {s : Settings} (h : settings c opts = some s) :
    IsLastValue Opt.alphaWord c.stod (1 / 20) opts s.alpha ∧ IsLastValue Opt.samplesWord (fun w => (c.stoull w).map (· % 4294967296)) 10 opts s.numBootstrapSamples := by
  refine ⟨lastValue_of_foldlM (get := Settings.alpha) ?_ ?_ h, lastValue_of_foldlM (get := Settings.numBootstrapSamples) ?_ ?_ h⟩
  · intro s o s' w hp h
    cases o <;> simp only [Opt.alphaWord, Option.some.injEq, reduceCtorEq] at hp
    subst hp
    simp only [setOption, Option.map_eq_some_iff] at h
    obtain ⟨a, ha, rfl⟩ := h
    exact ha
  · intro s o s' hp h
    cases o with
    | alpha w => cases hp
    | samples w =>
      simp only [setOption, Option.map_eq_some_iff] at h
      obtain ⟨a, ha, rfl⟩ := h
      rfl
    | unknown =>
      cases h
      rfl
  · intro s o s' w hp h
    cases o <;> simp only [Opt.samplesWord, Option.some.injEq, reduceCtorEq] at hp
    subst hp
    simp only [setOption, Option.map_eq_some_iff] at h
    obtain ⟨a, ha, rfl⟩ := h
    simp [ha]
  · intro s o s' hp h
    cases o with
    | samples w => cases hp
    | alpha w =>
      simp only [setOption, Option.map_eq_some_iff] at h
      obtain ⟨a, ha, rfl⟩ := h
      rfl
    | unknown =>
      cases h
      rfl

theorem settings_none (c : Context) (opts : List Opt) : settings c opts = none ↔ ∃ o ∈ opts, Bad c o := by
  refine foldlM_eq_none (fun s o => ?_) _ opts
  cases o <;> simp [setOption, Bad]

theorem lastValue_unique {Opt β : Type} {pick : Opt → Option (List Char)} {conv : List Char → Option β} {default : β} {opts : List Opt} {x y : β} (h : IsLastValue pick conv default opts x)
    (h' : IsLastValue pick conv default opts y) : x = y := by
  have key : ∀ (b b' a a' : List Opt) (o o' : Opt), b ++ o :: a = b' ++ o' :: a' → pick o ≠ none → pick o' ≠ none → (∀ z ∈ a, pick z = none) → (∀ z ∈ a', pick z = none) → o = o' := by
    intro b b' a a' o o' he ho ho' ha ha'
    rcases List.append_eq_append_iff.1 he with ⟨c, h1, h2⟩ | ⟨c, h1, h2⟩
    · cases c with
      | nil => simp at h2; exact h2.1
      | cons z c =>
        simp only [List.cons_append, List.cons.injEq] at h2
        exact absurd (ha o' (by rw [h2.2]; simp)) ho'
    · cases c with
      | nil => simp at h2; exact h2.1.symm
      | cons z c =>
        simp only [List.cons_append, List.cons.injEq] at h2
        exact absurd (ha' o (by rw [h2.2]; simp)) ho
  rcases h with ⟨b, o, a, w, h1, h2, h3, h4⟩ | ⟨h1, h2⟩ <;> rcases h' with ⟨b', o', a', w', k1, k2, k3, k4⟩ | ⟨k1, k2⟩
  · have := key b b' a a' o o' (h1.symm.trans k1) (by simp [h2]) (by simp [k2]) h3 k3
    rw [this, k2] at h2
    rw [← Option.some.inj h2, k4] at h4
    exact (Option.some.inj h4).symm
  · rw [k1 o (by rw [h1]; simp)] at h2
    cases h2
  · rw [h1 o' (by rw [k1]; simp)] at k2
    cases k2
  · rw [h2, k2]

/-! ### The program -/

theorem write_spec {α : Type} (print : α → List Char) (f : Fn α) : IsFunctionText print f (write print f) := by
  induction f with
  | nil => exact .nil
  | cons p f ih =>
    have := IsFunctionText.cons (print := print) p.1 p.2 f _ ih
    simpa [write] using this

/-- The program for files with functions. -/
theorem main_eq (c : Context) (files : List Char → Option (List Char)) {args : List (List Char)} (hargs : 2 ≤ args.length) {functions : List (List (ℝ × ℝ))}
    (hfiles : List.Forall₂ (fun path points => IsFunctionFile c.scan (files path) points) args functions) (hnd : ∀ l ∈ functions, l ≠ [] ∧ (l.map Prod.fst).Nodup) :
    ∃ fs, List.Forall₂ (fun l f => construct l = some f) functions fs ∧ ∀ opts, main c files opts args =
      match settings c opts with
      | none => .error .exception
      | some s =>
        match process c s fs with
        | .error e => .error e
        | .ok text => .ok (0, text) := by
  obtain ⟨fs, h1, h2⟩ : ∃ fs, List.Forall₂ (fun l f => construct l = some f) functions fs ∧ (args.mapM fun path => load c.scan (files path)) = some fs := by
    clear hargs
    induction hfiles with
    | nil => exact ⟨[], .nil, rfl⟩
    | @cons path points args functions h _ ih =>
      obtain ⟨fs, k1, k2⟩ := ih fun l hl => hnd l (by simp [hl])
      obtain ⟨f, hf, -⟩ := (C42_construction points).1 (hnd points (by simp)).2
      refine ⟨f :: fs, .cons hf k1, ?_⟩
      rw [List.mapM_cons, (load_iff _ _ _).2 ⟨points, h, hf⟩, k2]
      rfl
  refine ⟨fs, h1, fun opts => ?_⟩
  unfold main
  cases settings c opts with
  | none => rfl
  | some s =>
    simp only [if_neg (show ¬args.length ≤ 1 by omega), h2]
    cases process c s fs <;> rfl

open Classical in
/-- C181. Partial: functions with the same domain.  The output consists of the pointwise mean, and of a band of constant width around it.  Its half width is the smallest distance such that, of the
replicates of the mean, at least the fraction `1 - alpha` differs from the mean by at most this distance. -/
theorem _root_.Aleph.C181_band_partial (c : Context) (files : List Char → Option (List Char)) (opts : List Opt) (args : List (List Char)) (functions : List (List (ℝ × ℝ))) (alpha : ℝ) (B : ℕ)
    (hlow : c.lowest ≤ 0) (hgood : ∀ o ∈ opts, ¬Bad c o) (halpha : IsLastValue Opt.alphaWord c.stod (1 / 20) opts alpha)
    (hB : IsLastValue Opt.samplesWord (fun w => (c.stoull w).map (· % 4294967296)) 10 opts B) (h0 : 0 ≤ alpha) (h1 : alpha < 1) (hpos : 0 < B) (hargs : 2 ≤ args.length)
    (hfiles : List.Forall₂ (fun path points => IsFunctionFile c.scan (files path) points) args functions) (hdraw : Spec.InRange c.draw functions)
    (hnd : ∀ l ∈ functions, l ≠ [] ∧ (l.map Prod.fst).Nodup) (hdom : SameDomain functions) :
    ∃ m u l tm tu tl r, main c files opts args = .ok (0, tm ++ "\n\n".toList ++ tu ++ "\n\n".toList ++ tl ++ "\n".toList) ∧
      IsFunctionText c.print m tm ∧ IsFunctionText c.print u tu ∧ IsFunctionText c.print l tl ∧ Ascending m ∧ Ascending u ∧ Ascending l ∧
      (∀ f ∈ functions, ∀ g ∈ [m, u, l], ∀ x, InDomain g x ↔ InDomain f x) ∧ (∀ x, ∃! y, IsMeanAt functions x y) ∧
      (∀ x y, IsMeanAt functions x y → ValueAt m x y ∧ (InDomain m x → ValueAt u x (y + r) ∧ ValueAt l x (y - r))) ∧ 0 ≤ r ∧
      (1 - alpha) * B ≤ ((List.range B).countP fun k => decide (MeansWithin functions (resample (c.draw k) functions) r)) ∧
      (((List.range B).countP fun k => decide (∃ r' < r, MeansWithin functions (resample (c.draw k) functions) r') : ℕ) : ℝ) < (1 - alpha) * B := by
  have hmain := main_eq c files (args := args) hargs (functions := functions) hfiles hnd
  obtain ⟨s, hs⟩ : ∃ s, settings c opts = some s := by
    cases e : settings c opts with
    | some s => exact ⟨s, rfl⟩
    | none =>
      obtain ⟨o, ho, hb⟩ := (settings_none c opts).1 e
      exact absurd hb (hgood o ho)
  obtain ⟨e1, e2⟩ := settings_spec c hs
  have hsa : s.alpha = alpha := lastValue_unique e1 halpha
  have hsB : s.numBootstrapSamples = B := lastValue_unique e2 hB
  have hBlt : B < 2 ^ 32 := by
    rcases hB with ⟨_, _, _, w, _, _, _, h⟩ | ⟨_, h⟩
    · rw [Option.map_eq_some_iff] at h
      obtain ⟨n, -, rfl⟩ := h
      have := Nat.mod_lt n (show 0 < 4294967296 by norm_num)
      omega
    · omega
  obtain ⟨fs, hbuilt, hmain⟩ := hmain
  have hlen := hbuilt.length_eq
  have hlenf : 2 ≤ functions.length := hfiles.length_eq ▸ hargs
  have hne : functions ≠ [] := by
    rintro rfl
    simp at hlenf
  obtain ⟨l0, hl0⟩ := List.exists_mem_of_ne_nil functions hne
  have fam : Family functions fs (InDomain l0) := ⟨hbuilt, fun l hl x => hdom l hl l0 hl0 x⟩
  obtain ⟨m, m1, m2, m3, m4⟩ := fam.mean hne
  have hD : ∃ x, InDomain l0 x := by
    obtain ⟨p, hp⟩ := List.exists_mem_of_ne_nil l0 (hnd l0 hl0).1
    exact ⟨p.1, ⟨p, hp, le_rfl⟩, ⟨p, hp, le_rfl⟩⟩
  have hres : ∀ k, resample (c.draw k) functions ≠ [] := by
    intro k h
    have := (resample_mapM (hdraw k)).2.1
    rw [h] at this
    simp at this
    omega
  choose rep r1 r2 r3 r4 using fun k => (fam.resample (hdraw k)).mean (hres k)
  have hrep : (makeReplicates c.draw B fs mean).bind (fun l => l.mapM id) = some ((List.range B).map rep) := by
    have hne' : fs ≠ [] := by
      rintro rfl
      exact hne (List.eq_nil_of_length_eq_zero hlen)
    rw [((C87_replicates c.draw B fs mean).2 (fun k i => hlen ▸ hdraw k i) hne').1, Option.bind_some, mapM_iff, List.forall₂_map_left_iff, List.forall₂_map_right_iff, List.forall₂_same]
    exact fun k _ => r1 k
  obtain ⟨i, hi, hiB, i1, i2⟩ := index_eq hBlt (a := 1 - alpha) (by linarith) (by linarith) hpos
  have hdev := fun k q => deviation_iff m2 (r2 k) m3 (r3 k) hD m4 (r4 k) c.lowest hlow fs.length (by omega) q
  obtain ⟨E, hE⟩ : ∃ E, E = ((List.range B).map rep).map (deviation c.lowest fs.length m) := ⟨_, rfl⟩
  have hElen : E.length = B := by simp [hE]
  have hp := List.perm_insertionSort (· ≤ ·) E
  have hsort : (E.insertionSort (· ≤ ·)).Pairwise (· ≤ ·) := List.pairwise_insertionSort _ _
  have hil : i < (E.insertionSort (· ≤ ·)).length := by rw [hp.length_eq, hElen]; exact hiB
  obtain ⟨q, hq⟩ : ∃ q, (E.insertionSort (· ≤ ·))[i]? = some q := ⟨_, List.getElem?_eq_getElem hil⟩
  obtain ⟨k1, k2, k3⟩ := sorted_counts hsort hq
  rw [hp.countP_eq] at k1 k2
  have hqE : q ∈ E := hp.mem_iff.1 (List.mem_of_getElem? hq)
  have hproc : process c s fs = .ok (output c fs.length m q) := by
    unfold process
    rw [m1, hsB, hrep, hsa]
    simp only [hi, ← hE, hq]
  have hcount : ∀ P : ℝ → Bool, E.countP P = (List.range B).countP fun k => P (deviation c.lowest fs.length m (rep k)) := by
    intro P
    rw [hE, List.map_map, List.countP_map]
    rfl
  have hsc := C42_scalars m m2 (q / √(fs.length : ℝ))
  have hu := hsc.1 (applyScalar (fun a b => a + b) m (q / √(fs.length : ℝ))) (fun y => y + q / √(fs.length : ℝ)) (by simp)
  have hl := hsc.1 (applyScalar (fun a b => a - b) m (q / √(fs.length : ℝ))) (fun y => y - q / √(fs.length : ℝ)) (by simp)
  refine ⟨m, _, _, _, _, _, q / √(fs.length : ℝ), ?_, write_spec _ _, write_spec _ _, write_spec _ _, m2, hu.1, hl.1, ?_, ?_, ?_, ?_, ?_, ?_⟩
  · rw [hmain, hs]
    simp only [hproc]
    rfl
  · intro f hf g hg x
    refine Iff.trans ?_ (hdom l0 hl0 f hf x)
    simp only [List.mem_cons, List.not_mem_nil, or_false] at hg
    rcases hg with rfl | rfl | rfl
    · exact m3 x
    · exact (map_domain m (fun y => y + q / √(fs.length : ℝ)) x).trans (m3 x)
    · exact (map_domain m (fun y => y - q / √(fs.length : ℝ)) x).trans (m3 x)
  · intro x
    exact ⟨eval m x, (m4 x _).2 rfl, fun y hy => (m4 x y).1 hy⟩
  · intro x y hy
    rw [(m4 x y).1 hy]
    refine ⟨eval_value m2 x, fun hx => ⟨?_, ?_⟩⟩
    · have := eval_value hu.1 x
      rwa [(hu.2 x).1 hx] at this
    · have := eval_value hl.1 x
      rwa [(hl.2 x).1 hx] at this
  · refine div_nonneg ?_ (Real.sqrt_nonneg _)
    rw [hE, List.map_map] at hqE
    obtain ⟨k, -, rfl⟩ := List.mem_map.1 hqE
    exact (hdev k 0).2.2
  · have : (List.range B).countP (fun k => decide (MeansWithin functions (resample (c.draw k) functions) (q / √(fs.length : ℝ)))) = E.countP fun x => decide (x ≤ q) := by
      rw [hcount]
      exact List.countP_congr fun k _ => by simp only [decide_eq_true_eq]; exact (hdev k q).1
    rw [this]
    have : ((i + 1 : ℕ) : ℝ) ≤ (E.countP fun x => decide (x ≤ q) : ℕ) := by exact_mod_cast k2
    push_cast at this
    linarith
  · have : (List.range B).countP (fun k => decide (∃ r' < q / √(fs.length : ℝ), MeansWithin functions (resample (c.draw k) functions) r')) = E.countP fun x => decide (x < q) := by
      rw [hcount]
      exact List.countP_congr fun k _ => by simp only [decide_eq_true_eq]; exact (hdev k q).2.1
    rw [this]
    have : ((E.countP fun x => decide (x < q) : ℕ) : ℝ) ≤ i := by exact_mod_cast k1
    linarith

/-- C181. Invalid options, files that cannot be opened or contain lines without two numbers, and points with the same first coordinate raise an exception.  With fewer than two files, nothing is
calculated. -/
theorem _root_.Aleph.C181_failures (c : Context) (files : List Char → Option (List Char)) (opts : List Opt) (args : List (List Char)) :
    ((∃ o ∈ opts, Bad c o) → main c files opts args = .error .exception) ∧
    ((∀ o ∈ opts, ¬Bad c o) → args.length ≤ 1 → main c files opts args = .ok (-1, [])) ∧
    ((∀ o ∈ opts, ¬Bad c o) → 2 ≤ args.length → (∃ path ∈ args, ¬∃ points, IsFunctionFile c.scan (files path) points ∧ (points.map Prod.fst).Nodup) → main c files opts args = .error .exception) := by
  have hset : (∀ o ∈ opts, ¬Bad c o) → ∃ s, settings c opts = some s := by
    intro h
    cases e : settings c opts with
    | some s => exact ⟨s, rfl⟩
    | none =>
      obtain ⟨o, ho, hb⟩ := (settings_none c opts).1 e
      exact absurd hb (h o ho)
  refine ⟨fun h => ?_, fun h hl => ?_, fun h hl hf => ?_⟩
  · unfold main
    rw [(settings_none c opts).2 h]
  · obtain ⟨s, hs⟩ := hset h
    unfold main
    rw [hs]
    simp only [if_pos hl]
  · obtain ⟨s, hs⟩ := hset h
    unfold main
    rw [hs]
    simp only [if_neg (show ¬args.length ≤ 1 by omega)]
    cases e : args.mapM fun path => load c.scan (files path) with
    | none => rfl
    | some fs =>
      exfalso
      rw [mapM_iff] at e
      obtain ⟨path, hp, hno⟩ := hf
      obtain ⟨i, hi, rfl⟩ := List.mem_iff_getElem.1 hp
      have hload := e.get hi (e.length_eq ▸ hi)
      obtain ⟨points, h1, h2⟩ := (load_iff _ _ _).1 hload
      refine hno ⟨points, h1, ?_⟩
      by_contra hn
      rw [(C42_construction points).2 hn] at h2
      cases h2

/-- C181. There is no output if the level is not smaller than one, or if it is negative, or if there are no samples. -/
theorem _root_.Aleph.C181_level (c : Context) (files : List Char → Option (List Char)) (opts : List Opt) (args : List (List Char)) (alpha : ℝ) (B : ℕ)
    (halpha : IsLastValue Opt.alphaWord c.stod (1 / 20) opts alpha) (hB : IsLastValue Opt.samplesWord (fun w => (c.stoull w).map (· % 4294967296)) 10 opts B) (hargs : 2 ≤ args.length)
    (h : alpha < 0 ∨ 1 ≤ alpha ∨ B = 0) : ∃ e, main c files opts args = .error e := by
  unfold main
  cases hs : settings c opts with
  | none => exact ⟨_, rfl⟩
  | some s =>
    obtain ⟨e1, e2⟩ := settings_spec c hs
    have hsa : s.alpha = alpha := lastValue_unique e1 halpha
    have hsB : s.numBootstrapSamples = B := lastValue_unique e2 hB
    simp only [if_neg (show ¬args.length ≤ 1 by omega)]
    cases hl : args.mapM fun path => load c.scan (files path) with
    | none => exact ⟨_, rfl⟩
    | some fs =>
      simp only
      suffices H : ∃ e, process c s fs = .error e by
        obtain ⟨e, he⟩ := H
        exact ⟨e, by simp only [he]⟩
      unfold process
      split
      · next m reps hm hr =>
        have hreps : reps.length ≤ B := by
          rw [hsB] at hr
          obtain ⟨l, hl1, hl2⟩ := Option.bind_eq_some_iff.1 hr
          rw [← ((mapM_iff _ _ _).1 hl2).length_eq]
          unfold makeReplicates at hl1
          split at hl1
          · rw [← Option.some.inj hl1]
            simp
          · rw [← ((mapM_iff _ _ _).1 hl1).length_eq, List.length_range]
        simp only [hsa, hsB]
        have hBlt : B < 2 ^ 32 := by
          rcases hB with ⟨_, _, _, w, _, _, _, h⟩ | ⟨_, h⟩
          · rw [Option.map_eq_some_iff] at h
            obtain ⟨n, -, rfl⟩ := h
            have := Nat.mod_lt n (show 0 < 4294967296 by norm_num)
            omega
          · omega
        have hidx : index B (1 - alpha) = none ∨ ∃ i, index B (1 - alpha) = some i ∧ B ≤ i := by
          by_cases hB0 : B = 0
          · cases e : index B (1 - alpha) with
            | none => exact .inl rfl
            | some i => exact .inr ⟨i, rfl, by omega⟩
          · rcases h with h | h | h
            · cases e : index B (1 - alpha) with
              | none => exact .inl rfl
              | some i =>
                refine .inr ⟨i, rfl, ?_⟩
                unfold index at e
                simp only at e
                split at e
                · next hc =>
                  have hBpos : (0 : ℝ) < B := by exact_mod_cast Nat.pos_of_ne_zero hB0
                  have hlt : (B : ℤ) < ⌈(B : ℝ) * (1 - alpha)⌉ := by
                    rw [Int.lt_ceil]
                    push_cast
                    nlinarith
                  have hi : decrement (⌈(B : ℝ) * (1 - alpha)⌉).toNat = i := Option.some.inj e
                  generalize ⌈(B : ℝ) * (1 - alpha)⌉ = z at hlt hi hc
                  obtain ⟨n, rfl⟩ : ∃ n : ℕ, z = (n : ℤ) + 1 := ⟨(z - 1).toNat, by omega⟩
                  have : ((n : ℤ) + 1).toNat = n + 1 := by omega
                  rw [this] at hi
                  simp only [decrement] at hi
                  omega
                · cases e
            · exact index_none hBlt (by linarith)
            · exact absurd h hB0
        rcases hidx with he | ⟨i, he, hi⟩
        · exact ⟨_, by rw [he]⟩
        · rw [he]
          simp only
          have : ((reps.map (deviation c.lowest fs.length m)).insertionSort (· ≤ ·))[i]? = none := by
            rw [List.getElem?_eq_none_iff, (List.perm_insertionSort _ _).length_eq, List.length_map]
            omega
          exact ⟨_, by rw [this]⟩
      · exact ⟨_, rfl⟩

/-- C181. The mean of functions with different domains is wrong: here, all functions vanish at 5, but their mean does not. -/
theorem _root_.Aleph.C181_domain_witness : let f : Fn ℚ := [(0, 1), (4, 1)]; let g : Fn ℚ := [(8, 1), (9, 1)]
    eval f 5 = 0 ∧ eval g 5 = 0 ∧ (mean [f, g]).map (fun m => eval m 5) = some (1 / 4) := by decide +kernel

/-! ### Examples -/

/-- Two numbers in a line, for the examples. -/
noncomputable def sampleScan (l : List Char) : Option (ℝ × ℝ) :=
  if l = "0 0".toList then some (0, 0) else if l = "1 1".toList then some (1, 1) else if l = "0 1".toList then some (0, 1) else if l = "1 0".toList then some (1, 0) else none

/-- An environment with two files, and random numbers that alternate between both. -/
noncomputable def sampleContext : Context := ⟨sampleScan, fun _ => some (1 / 2), fun _ => some 5, fun _ => "0".toList, -1, fun k i => (k * i) % 2⟩

def sampleFiles (path : List Char) : Option (List Char) :=
  if path = "f".toList then some "0 0\n1 1\n".toList else if path = "g".toList then some "# second\n 0 1\n1 0".toList else none

theorem sample_f : IsFunctionFile sampleScan (sampleFiles "f".toList) [(0, 0), (1, 1)] := by
  refine ⟨"0 0\n1 1\n".toList, ["0 0".toList, "1 1".toList], false, [some (0, 0), some (1, 1)], by decide, ?_, ?_, rfl⟩
  · exact .cons "0 0".toList "1 1\n".toList _ _ (by decide) (.cons "1 1".toList [] _ _ (by decide) .nil)
  · refine .cons ((loadLine_iff _ _ _).1 ?_) (.cons ((loadLine_iff _ _ _).1 ?_) .nil)
    · rw [loadLine, show Strings.trim "0 0".toList = "0 0".toList by decide]
      simp [sampleScan]
    · rw [loadLine, show Strings.trim "1 1".toList = "1 1".toList by decide]
      simp [sampleScan]

theorem sample_g : IsFunctionFile sampleScan (sampleFiles "g".toList) [(0, 1), (1, 0)] := by
  refine ⟨"# second\n 0 1\n1 0".toList, ["# second".toList, " 0 1".toList, "1 0".toList], true, [none, some (0, 1), some (1, 0)], by decide, ?_, ?_, rfl⟩
  · exact .cons "# second".toList " 0 1\n1 0".toList _ _ (by decide) (.cons " 0 1".toList "1 0".toList _ _ (by decide) (.last _ (by decide) (by decide)))
  · refine .cons ((loadLine_iff _ _ _).1 ?_) (.cons ((loadLine_iff _ _ _).1 ?_) (.cons ((loadLine_iff _ _ _).1 ?_) .nil))
    · rw [loadLine, show Strings.trim "# second".toList = "# second".toList by decide]
      simp
    · rw [loadLine, show Strings.trim " 0 1".toList = "0 1".toList by decide]
      simp [sampleScan]
    · rw [loadLine, show Strings.trim "1 0".toList = "1 0".toList by decide]
      simp [sampleScan]

/-- All conditions of `C181_band_partial` hold for the example. -/
example : sampleContext.lowest ≤ 0 ∧ (∀ o ∈ [Opt.alpha [], .unknown], ¬Bad sampleContext o) ∧ IsLastValue Opt.alphaWord sampleContext.stod (1 / 20) [Opt.alpha [], .unknown] (1 / 2) ∧
    IsLastValue Opt.samplesWord (fun w => (sampleContext.stoull w).map (· % 4294967296)) 10 [Opt.alpha [], .unknown] 10 ∧
    List.Forall₂ (fun path points => IsFunctionFile sampleContext.scan (sampleFiles path) points) ["f".toList, "g".toList] [[(0, 0), (1, 1)], [(0, 1), (1, 0)]] ∧
    Spec.InRange sampleContext.draw [[((0 : ℝ), (0 : ℝ)), (1, 1)], [(0, 1), (1, 0)]] ∧ SameDomain [[((0 : ℝ), (0 : ℝ)), (1, 1)], [(0, 1), (1, 0)]] ∧
    ∀ l ∈ [[((0 : ℝ), (0 : ℝ)), (1, 1)], [(0, 1), (1, 0)]], l ≠ [] ∧ (l.map Prod.fst).Nodup := by
  refine ⟨by norm_num [sampleContext], ?_, ?_, ?_, .cons sample_f (.cons sample_g .nil), ?_, ?_, ?_⟩
  · simp [Bad, sampleContext]
  · exact .inl ⟨[], .alpha [], [.unknown], [], rfl, rfl, by simp [Opt.alphaWord], rfl⟩
  · exact .inr ⟨by simp [Opt.samplesWord], rfl⟩
  · intro k i
    exact Nat.mod_lt _ (by norm_num)
  · intro f hf g hg x
    simp only [List.mem_cons, List.not_mem_nil, or_false] at hf hg
    rcases hf with rfl | rfl <;> rcases hg with rfl | rfl <;> simp [InDomain]
  · simp

end Aleph.Smoothing
