import Verif.Lemmas.LevelDiagrams
import Verif.Lemmas.Options
import Verif.Model.WitnessExample
import Verif.Props.VietorisRipsExample
import Verif.Props.Witness
import Verif.Spec.WitnessExample
import Mathlib.Algebra.Order.Floor.Semiring

/-!
# C167: the example `witness_complex`
-/

namespace Aleph.WitnessExample

open Finset Spec NetworkAnalysis
open VietorisRipsExample (Failure squared)

/-! ### Options -/

/-- The argument of an option for the number of landmarks. -/
def Opt.landmarksWord : Opt → Option (List Char)
  | .landmarks w => some w
  | _ => none

/-- The argument of an option for the parameter `nu`. -/
def Opt.nuWord : Opt → Option (List Char)
  | .nu w => some w
  | _ => none

/-- The argument of an option for the radius. -/
def Opt.radiusWord : Opt → Option (List Char)
  | .radius w => some w
  | _ => none

/-- C167. Each parameter is determined by the last option that sets it; by default, ten percent of the points are landmarks, `nu` is two, and the radius is zero.
Arguments of options that are not numbers raise an exception. -/
theorem _root_.Aleph.C167_options {α : Type} [Field α] (c : Context α) (opts : List Opt) :
    (∀ s, settings c opts = some s → IsLastValue Opt.landmarksWord c.stod (1 / 10) opts s.fraction ∧ IsLastValue Opt.nuWord c.stoul 2 opts s.nu ∧
      IsLastValue Opt.radiusWord c.stod 0 opts s.radius ∧ (s.random = true ↔ Opt.random ∈ opts)) ∧
    (settings c opts = none ↔ (∃ w, Opt.landmarks w ∈ opts ∧ c.stod w = none) ∨ (∃ w, Opt.nu w ∈ opts ∧ c.stoul w = none) ∨
      ∃ w, Opt.radius w ∈ opts ∧ c.stod w = none) := by
  constructor
  · intro s hs
    unfold settings at hs
    refine ⟨?_, ?_, ?_, ?_⟩
    · refine lastValue_of_foldlM (get := Settings.fraction) ?_ ?_ hs
      · intro s o s' w hp h
        cases o <;> simp only [Opt.landmarksWord, Option.some.injEq, reduceCtorEq] at hp
        subst hp
        obtain ⟨x, h1, rfl⟩ := Option.map_eq_some_iff.1 h
        exact h1
      · intro s o s' hp h
        cases o <;> simp only [Opt.landmarksWord, reduceCtorEq, setOption, Option.map_eq_some_iff, Option.some.injEq] at hp h
        · obtain ⟨x, h1, rfl⟩ := h; rfl
        · obtain ⟨x, h1, rfl⟩ := h; rfl
        · rw [← h]
        · rw [← h]
    · refine lastValue_of_foldlM (get := Settings.nu) ?_ ?_ hs
      · intro s o s' w hp h
        cases o <;> simp only [Opt.nuWord, Option.some.injEq, reduceCtorEq] at hp
        subst hp
        obtain ⟨x, h1, rfl⟩ := Option.map_eq_some_iff.1 h
        exact h1
      · intro s o s' hp h
        cases o <;> simp only [Opt.nuWord, reduceCtorEq, setOption, Option.map_eq_some_iff, Option.some.injEq] at hp h
        · obtain ⟨x, h1, rfl⟩ := h; rfl
        · obtain ⟨x, h1, rfl⟩ := h; rfl
        · rw [← h]
        · rw [← h]
    · refine lastValue_of_foldlM (get := Settings.radius) ?_ ?_ hs
      · intro s o s' w hp h
        cases o <;> simp only [Opt.radiusWord, Option.some.injEq, reduceCtorEq] at hp
        subst hp
        obtain ⟨x, h1, rfl⟩ := Option.map_eq_some_iff.1 h
        exact h1
      · intro s o s' hp h
        cases o <;> simp only [Opt.radiusWord, reduceCtorEq, setOption, Option.map_eq_some_iff, Option.some.injEq] at hp h
        · obtain ⟨x, h1, rfl⟩ := h; rfl
        · obtain ⟨x, h1, rfl⟩ := h; rfl
        · rw [← h]
        · rw [← h]
    · have key : ∀ (l : List Opt) (a b : Settings α), l.foldlM (setOption c) a = some b → (b.random = true ↔ a.random = true ∨ Opt.random ∈ l) := by
        intro l
        induction l with
        | nil =>
          intro a b h
          simp only [List.foldlM_nil, pure, Option.some.injEq] at h
          simp [h]
        | cons o l ih =>
          intro a b h
          simp only [List.foldlM_cons, Option.bind_eq_bind, Option.bind_eq_some_iff] at h
          obtain ⟨a', h1, h2⟩ := h
          rw [ih a' b h2]
          cases o <;> simp only [setOption, Option.map_eq_some_iff, Option.some.injEq] at h1
          · obtain ⟨x, -, rfl⟩ := h1; simp
          · obtain ⟨x, -, rfl⟩ := h1; simp
          · obtain ⟨x, -, rfl⟩ := h1; simp
          · rw [← h1]; simp
          · rw [← h1]; simp
      rw [key _ _ _ hs]
      simp
  · unfold settings
    rw [foldlM_eq_none (bad := fun o => (∃ w, o = .landmarks w ∧ c.stod w = none) ∨ (∃ w, o = .nu w ∧ c.stoul w = none) ∨ ∃ w, o = .radius w ∧ c.stod w = none)]
    · constructor
      · rintro ⟨o, ho, ⟨w, rfl, h⟩ | ⟨w, rfl, h⟩ | ⟨w, rfl, h⟩⟩
        · exact Or.inl ⟨w, ho, h⟩
        · exact Or.inr (Or.inl ⟨w, ho, h⟩)
        · exact Or.inr (Or.inr ⟨w, ho, h⟩)
      · rintro (⟨w, ho, h⟩ | ⟨w, ho, h⟩ | ⟨w, ho, h⟩)
        · exact ⟨_, ho, Or.inl ⟨w, rfl, h⟩⟩
        · exact ⟨_, ho, Or.inr (Or.inl ⟨w, rfl, h⟩)⟩
        · exact ⟨_, ho, Or.inr (Or.inr ⟨w, rfl, h⟩)⟩
    · intro s o
      cases o <;> simp [setOption]

/-! ### The complex -/

section Complex

variable {α : Type} [LinearOrder α] [Add α] [Zero α] {N : ℕ} {dist : ℕ → ℕ → α} {landmarks : List ℕ} {nu : ℕ} {R : α} {k : ℕ}

/-- What is known about the complex. -/
structure IsWitnessFiltration (N : ℕ) (dist : ℕ → ℕ → α) (landmarks : List ℕ) (nu : ℕ) (R : α) (k : ℕ) (L : Complex α) : Prop where
  filt : IsFiltration L
  sorted : L.Pairwise fun s t => s.data ≤ t.data
  all : sets L = witnessComplex N dist landmarks nu R k
  levels : ∀ x, sublevel L x = witnessAt N dist landmarks nu R k x
  values : ∀ s ∈ L, s.data = 0 ∨ ∃ a ∈ landmarks, ∃ i < N, s.data = dist a i

theorem build_spec (o : Orders α) (top : α) (d dimension : ℕ) (hl : landmarks ≠ []) (hvalid : ∀ a ∈ landmarks, a < N) (hnu : nu ≤ landmarks.length)
    (hdist : ∀ a ∈ landmarks, ∀ i < N, 0 ≤ dist a i ∧ dist a i < top) (hk : k = if dimension = 0 then d + 1 else dimension) :
    ∃ L, Witness.build o top N d dist landmarks dimension nu R = some L ∧ IsWitnessFiltration N dist landmarks nu R k L := by
  obtain ⟨L, h1, h2, h3, h4, h5, h6, h7⟩ := C45_witness_complex o top N d dist landmarks dimension nu R hl hvalid hnu hdist
  rw [← hk] at h3
  have hwit : ∀ i u v y, i < N → IsWitness dist landmarks nu R i u v y → ∃ a ∈ landmarks, y = dist a i := by
    rintro i u v y hi ⟨a, b, m, e1, e2, -, rfl, -⟩
    rcases max_choice (dist a i) (dist b i) with h | h
    · exact ⟨a, List.mem_of_getElem? e1, h⟩
    · exact ⟨b, List.mem_of_getElem? e2, h⟩
  have hpos : ∀ s ∈ L, 2 ≤ #s.vset → ∃ a ∈ landmarks, ∃ i < N, s.data = dist a i := by
    intro s hs hc
    obtain ⟨⟨u, -, v, -, -, ⟨⟨i, hi, hw⟩, -⟩⟩, -⟩ := h5 s hs hc
    obtain ⟨a, ha, e⟩ := hwit i u v _ hi hw
    exact ⟨a, ha, i, hi, e⟩
  have hcard : ∀ s ∈ L, #s.vset = 1 ∨ 2 ≤ #s.vset := by
    intro s hs
    have := ((h3 s.vset).1 ⟨s, hs, rfl⟩).1.card_pos
    omega
  refine ⟨L, h1, ⟨h2, ?_, h6⟩, h7, ?_, ?_, ?_⟩
  · intro s hs t hts hne
    obtain ⟨g1, g2, g3, g4⟩ := (h3 s.vset).1 ⟨s, hs, rfl⟩
    exact (h3 t).2 ⟨hne, (card_le_card hts).trans g2, fun v hv => g3 v (hts hv), fun u hu v hv => g4 u (hts hu) v (hts hv)⟩
  · classical
    ext t
    rw [mem_sets]
    unfold witnessComplex
    rw [mem_filter, mem_powerset]
    refine (h3 t).trans ?_
    constructor
    · rintro ⟨g1, g2, g3, g4⟩
      exact ⟨fun v hv => mem_range.2 (g3 v hv), g1, g2, g4⟩
    · rintro ⟨g1, g2, g3, g4⟩
      exact ⟨g2, g3, fun v hv => mem_range.1 (g1 hv), g4⟩
  · intro x
    classical
    ext t
    unfold Spec.sublevel witnessAt
    rw [mem_sets, mem_filter, mem_powerset]
    constructor
    · rintro ⟨s, hs, rfl⟩
      obtain ⟨hs, hx⟩ := List.mem_filter.1 hs
      rw [decide_eq_true_eq] at hx
      obtain ⟨g1, g2, g3, g4⟩ := (h3 s.vset).1 ⟨s, hs, rfl⟩
      have h0 : 0 ≤ x := by
        rcases hcard s hs with hc | hc
        · rw [h4 s hs hc] at hx
          exact hx
        · obtain ⟨a, ha, i, hi, e⟩ := hpos s hs hc
          rw [e] at hx
          exact (hdist a ha i hi).1.trans hx
      refine ⟨fun v hv => mem_range.2 (g3 v hv), h0, g1, g2, fun u hu v hv huv => ?_⟩
      have hc : 2 ≤ #s.vset := one_lt_card.2 ⟨u, hu, v, hv, huv.ne⟩
      obtain ⟨i, hi, y, hy⟩ := g4 u hu v hv huv
      obtain ⟨w, hw⟩ : ∃ w, IsWitnessWeight N dist landmarks nu R u v w := by
        have hfin : {y | ∃ k < N, IsWitness dist landmarks nu R k u v y}.Finite := by
          refine ((Set.finite_lt_nat N).biUnion (t := fun k => {y | ∃ a ∈ landmarks, y = dist a k}) fun k _ => ?_).subset ?_
          · refine (landmarks.map fun a => dist a k).toFinset.finite_toSet.subset ?_
            rintro y ⟨a, ha, rfl⟩
            simp only [List.coe_toFinset, List.mem_map, Set.mem_ofPred_eq]
            exact ⟨a, ha, rfl⟩
          · rintro y ⟨k, hk, hy⟩
            simp only [Set.mem_iUnion]
            exact ⟨k, hk, hwit k u v y hk hy⟩
        obtain ⟨w, hw⟩ := hfin.exists_minimal ⟨y, i, hi, hy⟩
        exact ⟨w, hw.1, fun z hz => not_lt.1 fun hlt => absurd (hw.2 hz hlt.le) (not_le.2 hlt)⟩
      obtain ⟨i', hi', hw'⟩ := hw.1
      exact ⟨i', hi', w, ((h5 s hs hc).2 ⟨u, hu, v, hv, huv, hw⟩).trans hx, hw'⟩
    · rintro ⟨g1, h0, g2, g3, g4⟩
      obtain ⟨s, hs, rfl⟩ := (h3 t).2 ⟨g2, g3, fun v hv => mem_range.1 (g1 hv), fun u hu v hv huv => by
        obtain ⟨i, hi, y, -, hy⟩ := g4 u hu v hv huv
        exact ⟨i, hi, y, hy⟩⟩
      refine ⟨s, List.mem_filter.2 ⟨hs, ?_⟩, rfl⟩
      rw [decide_eq_true_eq]
      rcases hcard s hs with hc | hc
      · rw [h4 s hs hc]
        exact h0
      · obtain ⟨⟨u, hu, v, hv, huv, hw⟩, -⟩ := h5 s hs hc
        obtain ⟨i, hi, y, hyx, hy⟩ := g4 u hu v hv huv
        exact (hw.2 ⟨i, hi, hy⟩).trans hyx
  · intro s hs
    rcases hcard s hs with hc | hc
    · exact Or.inl (h4 s hs hc)
    · exact Or.inr (hpos s hs hc)

omit [Add α] in
theorem threshold_congr {dist' : ℕ → ℕ → α} {i : ℕ} (h : ∀ a ∈ landmarks, dist a i = dist' a i) (m : α) :
    IsThreshold dist landmarks nu i m ↔ IsThreshold dist' landmarks nu i m := by
  unfold IsThreshold
  rw [List.map_congr_left h]

/-- Only distances between landmarks and points matter. -/
theorem witness_congr {dist' : ℕ → ℕ → α} {i : ℕ} (h : ∀ a ∈ landmarks, dist a i = dist' a i) (u v : ℕ) (y : α) :
    IsWitness dist landmarks nu R i u v y ↔ IsWitness dist' landmarks nu R i u v y := by
  unfold IsWitness
  refine exists_congr fun a => exists_congr fun b => exists_congr fun m => and_congr_right fun ha => and_congr_right fun hb => ?_
  rw [threshold_congr h, h a (List.mem_of_getElem? ha), h b (List.mem_of_getElem? hb)]

theorem complex_congr {dist' : ℕ → ℕ → α} (h : ∀ a ∈ landmarks, ∀ i < N, dist a i = dist' a i) :
    witnessComplex N dist landmarks nu R k = witnessComplex N dist' landmarks nu R k ∧ ∀ x, witnessAt N dist landmarks nu R k x = witnessAt N dist' landmarks nu R k x := by
  classical
  unfold witnessComplex witnessAt
  refine ⟨?_, fun x => ?_⟩
  · refine filter_congr fun t _ => and_congr_right fun _ => and_congr_right fun _ => forall₂_congr fun u _ => forall₂_congr fun v _ => forall_congr' fun _ => ?_
    exact exists_congr fun i => and_congr_right fun hi => exists_congr fun y => witness_congr (fun a ha => h a ha i hi) u v y
  · refine filter_congr fun t _ => and_congr_right fun _ => and_congr_right fun _ => and_congr_right fun _ => forall₂_congr fun u _ => forall₂_congr fun v _ =>
      forall_congr' fun _ => ?_
    exact exists_congr fun i => and_congr_right fun hi => exists_congr fun y => and_congr_right fun _ => witness_congr (fun a ha => h a ha i hi) u v y

end Complex

/-! ### Landmarks -/

/-- Squares of distances order points like distances. -/
theorem maxMin_of_squares {N : ℕ} {dist sq : ℕ → ℕ → ℝ} (hnn : ∀ i j, 0 ≤ dist i j) (hsq : ∀ i < N, ∀ j < N, sq i j = dist i j ^ 2) {l : List ℕ} (hl : ∀ a ∈ l, a < N)
    (h : IsMaxMin N sq l) : IsMaxMin N dist l := by
  have hto : ∀ m, ∀ i < N, ∀ x, IsDistanceTo dist (l.take m) i x → IsDistanceTo sq (l.take m) i (x ^ 2) := by
    rintro m i hi x ⟨⟨j, hj, rfl⟩, h2⟩
    refine ⟨⟨j, hj, (hsq i hi j (hl j (List.mem_of_mem_take hj))).symm⟩, ?_⟩
    rintro y ⟨j', hj', rfl⟩
    rw [hsq i hi j' (hl j' (List.mem_of_mem_take hj'))]
    exact pow_le_pow_left₀ (hnn _ _) (h2 ⟨j', hj', rfl⟩) 2
  intro m a h0 ha
  have haN := hl a (List.mem_of_getElem? ha)
  obtain ⟨x, ⟨⟨j, hj, e⟩, h1⟩, h2⟩ := h m a h0 ha
  have hjN := hl j (List.mem_of_mem_take hj)
  rw [hsq a haN j hjN] at e
  refine ⟨dist a j, ⟨⟨j, hj, rfl⟩, ?_⟩, ?_⟩
  · rintro y ⟨j', hj', rfl⟩
    have := h1 ⟨j', hj', rfl⟩
    rw [hsq a haN j' (hl j' (List.mem_of_mem_take hj')), e] at this
    exact (pow_le_pow_iff_left₀ (hnn _ _) (hnn _ _) two_ne_zero).1 this
  · intro i hi y hy
    have := h2 i hi _ (hto m i hi y hy)
    rw [e] at this
    have hy0 : 0 ≤ y := by
      obtain ⟨⟨j', -, rfl⟩, -⟩ := hy
      exact hnn _ _
    exact (pow_le_pow_iff_left₀ hy0 (hnn _ _) two_ne_zero).1 this

/-- What is known about the square root, the conversion to integers, and the range of numbers. -/
structure Context.Exact (c : Context ℝ) : Prop where
  root : c.root = Real.sqrt
  truncate : ∀ x, 0 ≤ x → c.truncate x = some ⌊x⌋₊
  top : c.top ≤ c.inf
  bot : c.bot ≤ 0

/-- The points are given by `rows`, and the squares of all distances can be represented. -/
structure IsCloud (c : Context ℝ) (text : Option (List Char)) (pc : PointCloud ℝ) (rows : List (List ℝ)) : Prop where
  load : loadPoints c text = .ok pc
  points : pc.Has rows
  range : ∀ i < rows.length, ∀ j < rows.length, pointDistance rows i j < c.top ∧ pointDistance rows i j ^ 2 ≤ c.top

section Output

variable {c : Context ℝ} (hc : c.Exact) {text : Option (List Char)} {pc : PointCloud ℝ} {rows : List (List ℝ)} (h : IsCloud c text pc rows)

include hc h

theorem squares {i j : ℕ} (hi : i < rows.length) (hj : j < rows.length) : squared pc i j = pointDistance rows i j ^ 2 ∧ c.root (squared pc i j) = pointDistance rows i j := by
  have := (VietorisRipsExample.distances (c := ⟨c.inf, Real.sqrt, c.convert, c.stoul, fun _ => []⟩) rfl h.points hi hj)
  refine ⟨this.2, ?_⟩
  rw [hc.root]
  exact this.1

/-- The landmarks. -/
theorem landmarks_spec {shuffle : List ℕ → List ℕ} (hs : ∀ l, (shuffle l).Perm l) {first : ℕ} (hfirst : first < rows.length) {random : Bool} {m : ℕ} (h1 : 1 ≤ m)
    (hm : m ≤ rows.length) :
    ∃ l, landmarksOf c shuffle first random pc m = .ok l ∧ l.length = m ∧ (∀ a ∈ l, a < rows.length) ∧
      (random = true → l = (shuffle (List.range rows.length)).take m) ∧ (random = false → l.head? = some first ∧ IsMaxMin rows.length (pointDistance rows) l) := by
  have hn : pc.n = rows.length := h.points.count
  unfold landmarksOf
  rw [hn]
  cases random with
  | true =>
    obtain ⟨l, e1, e2, -, e4⟩ := C45_random_landmarks shuffle hs rows.length m hm
    refine ⟨l, by simp only [if_true, e1], e2, e4, fun _ => ?_, (by intro h; cases h)⟩
    unfold Witness.randomLandmarks at e1
    split at e1
    · exact (Option.some.inj e1).symm
    · cases e1
  | false =>
    obtain ⟨l, e1, e2, e3, e4, e5⟩ := C45_max_min_landmarks c.top c.bot rows.length (squared pc) first m hfirst h1 hm (fun i hi j hj => by
      rw [(squares hc h hi hj).1]
      exact ⟨hc.bot.trans (sq_nonneg _), (h.range i hi j hj).2⟩)
    refine ⟨l, by simp only [Bool.false_eq_true, if_false, e1], e2, e3, (by intro h; cases h), fun _ => ⟨by rw [List.head?_eq_getElem?]; exact e4, ?_⟩⟩
    exact maxMin_of_squares (fun i j => Real.sqrt_nonneg _) (fun i hi j hj => (squares hc h hi hj).1) e3 e5

end Output

/-- The largest dimension of simplices: one more than the dimension of the points, unless the program has three arguments and the second one is a different number than zero. -/
def _root_.Aleph.Spec.IsWitnessDimension (stoul : List Char → Option ℕ) (d : ℕ) (rest : List (List Char)) (k : ℕ) : Prop :=
  (rest.length = 1 ∧ k = d + 1) ∨ ∃ word more n, rest = word :: more ∧ more ≠ [] ∧ stoul word = some n ∧ k = if n = 0 then d + 1 else n

/-- C167. What `witness_complex` writes: for each dimension below that of the witness complex of the points, a header and the points of a diagram.  The diagrams count the persistent
homology classes of the witness complexes for all scales, without points on the diagonal.  The landmarks are a fraction of all points, rounded down: the first ones of a random order, or points that are as
far away from each other as possible.  Missing, and wrong: at least two arguments are required, and the dimension is taken into account only if there are three (see
`C167_arguments`); there have to be at least `nu` landmarks (see `C167_few_landmarks`); the largest dimension is not reported. -/
theorem _root_.Aleph.C167_output_partial (c : Context ℝ) (hc : c.Exact) (o : Orders ℝ) (shuffle : List ℕ → List ℕ) (hshuffle : ∀ l, (shuffle l).Perm l) (first : ℕ)
    (files : List Char → Option (List Char)) (opts : List Opt) (s : Settings ℝ) (hs : settings c opts = some s) (hpos : 0 ≤ s.fraction) (hle : s.fraction ≤ 1)
    (input : List Char) (rest : List (List Char)) (pc : PointCloud ℝ) (rows : List (List ℝ)) (h : IsCloud c (files input) pc rows) (hfirst : first < rows.length)
    (k : ℕ) (hk : IsWitnessDimension c.stoul pc.d rest k) (hone : 1 ≤ ⌊rows.length * s.fraction⌋₊) (hnu : s.nu ≤ ⌊rows.length * s.fraction⌋₊)
    (hsize : ripsSize ⌊rows.length * s.fraction⌋₊ k ≤ idxMax) :
    ∃ landmarks Es texts, main c o shuffle first files opts (input :: rest) = .ok (0, texts.flatten) ∧
      landmarks.length = ⌊rows.length * s.fraction⌋₊ ∧ (∀ a ∈ landmarks, a < rows.length) ∧
      (Opt.random ∈ opts → landmarks = (shuffle (List.range rows.length)).take ⌊rows.length * s.fraction⌋₊) ∧
      (Opt.random ∉ opts → landmarks.head? = some first ∧ IsMaxMin rows.length (pointDistance rows) landmarks) ∧
      IsLevelAnalysis c.inf (witnessAt rows.length (pointDistance rows) landmarks s.nu s.radius k)
        (witnessComplex rows.length (pointDistance rows) landmarks s.nu s.radius k) Es ∧
      List.Forall₂ (fun E t => IsRipsText c.print input E.1 E.2 t) Es texts := by
  have hn : pc.n = rows.length := h.points.count
  have hm : ⌊rows.length * s.fraction⌋₊ ≤ rows.length := by
    refine Nat.floor_le_of_le ?_
    exact mul_le_of_le_one_right (Nat.cast_nonneg _) hle
  have htr : c.truncate (pc.n * s.fraction) = some ⌊rows.length * s.fraction⌋₊ := by
    rw [hn]
    exact hc.truncate _ (mul_nonneg (Nat.cast_nonneg _) hpos)
  have htr' := htr
  rw [hn] at htr'
  obtain ⟨l, l1, l2, l3, l4, l5⟩ := landmarks_spec hc h hshuffle hfirst (random := s.random) hone hm
  have hrand := ((C167_options c opts).1 s hs).2.2.2
  have hdist : ∀ a ∈ l, ∀ i < rows.length, c.root (squared pc a i) = pointDistance rows a i := fun a ha i hi => (squares hc h (l3 a ha) hi).2
  obtain ⟨dim, hdim, hk'⟩ : ∃ dim, dimensionOf c pc.d rest = .ok dim ∧ k = if dim = 0 then pc.d + 1 else dim := by
    rcases hk with ⟨e, rfl⟩ | ⟨word, more, n, rfl, hmore, e, rfl⟩
    · obtain ⟨w, rfl⟩ := List.length_eq_one_iff.1 e
      exact ⟨pc.d + 1, rfl, by simp⟩
    · cases more with
      | nil => exact absurd rfl hmore
      | cons b more => exact ⟨n, by simp only [dimensionOf, e], rfl⟩
  have hl : l ≠ [] := by
    intro e
    rw [e] at l2
    simp only [List.length_nil] at l2
    omega
  obtain ⟨L, b1, b2⟩ := build_spec (N := rows.length) (dist := fun i j => c.root (squared pc i j)) (landmarks := l) (nu := s.nu) (R := s.radius) (k := k) o c.top pc.d dim hl l3
    (by rw [l2]; exact hnu) (fun a ha i hi => by
      simp only [hdist a ha i hi]
      exact ⟨Real.sqrt_nonneg _, (h.range a (l3 a ha) i hi).1⟩) hk'
  obtain ⟨e1, e2⟩ := complex_congr (N := rows.length) (nu := s.nu) (R := s.radius) (k := k) hdist
  have hLen : L.length ≤ idxMax := (PythonMatrix.length_le b2.filt.wf fun t ht => by
    classical
    have ht : t ∈ sets L := mem_sets.2 ht
    rw [b2.all] at ht
    unfold witnessComplex at ht
    rw [mem_filter, mem_powerset] at ht
    exact ⟨ht.2.1, ht.2.2.1, fun v hv => by rw [← l2]; exact mem_range.1 (ht.1 hv)⟩).trans hsize
  obtain ⟨p, Ds, q1, q2, q3⟩ := C51_pipeline c.inf L b2.filt hLen false
  have hinf : ∀ t ∈ L, t.data ≠ c.inf := by
    intro t ht
    refine ne_of_lt (lt_of_lt_of_le ?_ hc.top)
    rcases b2.values t ht with e | ⟨a, ha, i, hi, e⟩
    · rw [e]
      exact (Real.sqrt_nonneg _).trans_lt (h.range first hfirst first hfirst).1
    · rw [e]
      simp only [hdist a ha i hi]
      exact (h.range a (l3 a ha) i hi).1
  have hA := level_analysis b2.filt hLen b2.sorted hinf q1 q2
  rw [b2.all, e1, show sublevel L = witnessAt rows.length (pointDistance rows) l s.nu s.radius k from funext fun x => by rw [b2.levels, e2]] at hA
  refine ⟨l, _, Ds.map (diagramBlock c input), ?_, l2, l3, fun hr => l4 (hrand.2 hr), fun hr => l5 (by
    cases hb : s.random with
    | false => rfl
    | true => exact absurd (hrand.1 hb) hr), hA, ?_⟩
  · have hlist : ∃ a more, rest = a :: more := by
      rcases hk with ⟨e, -⟩ | ⟨word, more, n, rfl, -⟩
      · obtain ⟨w, rfl⟩ := List.length_eq_one_iff.1 e
        exact ⟨w, [], rfl⟩
      · exact ⟨word, more, rfl⟩
    obtain ⟨a, more, rfl⟩ := hlist
    unfold main diagrams
    simp only [hs, bind, Except.bind, h.load, htr', hdim, l1, hn, b1, q3 .twist .vector true]
    rw [List.flatMap_def]
  · rw [List.forall₂_map_left_iff, List.forall₂_map_right_iff, List.forall₂_same]
    intro D _
    exact ⟨_, _, Utilities.decimal_spec _, Utilities.decimal_spec _, rfl⟩

/-- C167. Disagreement: the name of a file alone is not accepted, although the dimension is said to be optional; two arguments have the same effect for all values of the second one.
Otherwise, a dimension that is not a number raises an exception. -/
theorem _root_.Aleph.C167_arguments {α : Type} [Field α] [LinearOrder α] (c : Context α) (o : Orders α) (shuffle : List ℕ → List ℕ) (first : ℕ) (files : List Char → Option (List Char))
    (opts : List Opt) (s : Settings α) (hs : settings c opts = some s) (input : List Char) :
    main c o shuffle first files opts [] = .ok (-1, []) ∧ main c o shuffle first files opts [input] = .ok (-1, []) ∧
    (∀ a b, main c o shuffle first files opts [input, a] = main c o shuffle first files opts [input, b]) ∧
    ∀ pc m a b more, loadPoints c (files input) = .ok pc → c.truncate (pc.n * s.fraction) = some m → c.stoul a = none →
      main c o shuffle first files opts (input :: a :: b :: more) = .error .exception := by
  refine ⟨by simp only [main, hs], by simp only [main, hs], fun a b => rfl, fun pc m a b more h1 h2 h3 => ?_⟩
  simp only [main, hs, diagrams, h1, h2, h3, dimensionOf, bind, Except.bind]

/-- C167. Disagreement: if there are fewer landmarks than `nu`, memory is read out of bounds (if no landmark is requested, then one is chosen nevertheless, unless landmarks are random).  More landmarks than points
raise an exception, or lead to undefined behaviour if they are random. -/
theorem _root_.Aleph.C167_few_landmarks (c : Context ℝ) (hc : c.Exact) (o : Orders ℝ) (shuffle : List ℕ → List ℕ) (hshuffle : ∀ l, (shuffle l).Perm l) (first : ℕ)
    (files : List Char → Option (List Char)) (opts : List Opt) (s : Settings ℝ) (hs : settings c opts = some s) (hpos : 0 ≤ s.fraction)
    (input a : List Char) (pc : PointCloud ℝ) (rows : List (List ℝ)) (h : IsCloud c (files input) pc rows) (hfirst : first < rows.length) :
    (⌊rows.length * s.fraction⌋₊ ≤ rows.length → (Opt.random ∈ opts → 1 ≤ ⌊rows.length * s.fraction⌋₊) → max 1 ⌊rows.length * s.fraction⌋₊ < s.nu →
      main c o shuffle first files opts [input, a] = .error .undefined) ∧
    (⌊rows.length * s.fraction⌋₊ = 0 → Opt.random ∈ opts → main c o shuffle first files opts [input, a] = .ok (0, [])) ∧
    (rows.length < ⌊rows.length * s.fraction⌋₊ →
      main c o shuffle first files opts [input, a] = .error (if s.random then .undefined else .exception)) := by
  have hn : pc.n = rows.length := h.points.count
  have htr : c.truncate (pc.n * s.fraction) = some ⌊rows.length * s.fraction⌋₊ := by
    rw [hn]
    exact hc.truncate _ (mul_nonneg (Nat.cast_nonneg _) hpos)
  have htr' := htr
  rw [hn] at htr'
  have hrand := ((C167_options c opts).1 s hs).2.2.2
  refine ⟨fun hle hr hnu => ?_, fun h0 hr => ?_, fun hlt => ?_⟩
  · obtain ⟨l, l1, l2, l3, l4⟩ : ∃ l, landmarksOf c shuffle first s.random pc ⌊rows.length * s.fraction⌋₊ = .ok l ∧ l ≠ [] ∧ l.length < s.nu ∧ ∀ a ∈ l, a < rows.length := by
      rcases Nat.eq_zero_or_pos ⌊rows.length * s.fraction⌋₊ with h0 | h0
      · have hb : s.random = false := by
          cases hb : s.random with
          | false => rfl
          | true =>
            have := hr (hrand.1 hb)
            omega
        refine ⟨[first], ?_, by simp, ?_, by simpa using hfirst⟩
        · rw [h0, hb]
          simp only [landmarksOf, Bool.false_eq_true, if_false, (C45_max_min_range c.top c.bot pc.n (squared pc) first 0).2]
        · rw [List.length_singleton]
          omega
      · obtain ⟨l, l1, l2, l3, -⟩ := landmarks_spec hc h hshuffle hfirst (random := s.random) h0 hle
        refine ⟨l, l1, ?_, by omega, l3⟩
        intro e
        rw [e] at l2
        simp only [List.length_nil] at l2
        omega
    have hb := C45_nu_out_of_range o c.top rows.length pc.d (fun i j => c.root (squared pc i j)) l (pc.d + 1) s.nu s.radius l2 (by omega) l4 l3
    simp only [main, hs, diagrams, h.load, htr', dimensionOf, bind, Except.bind, l1, hn, hb]
  · have hl : landmarksOf c shuffle first s.random pc 0 = .ok [] := by
      rw [hrand.2 hr]
      simp [landmarksOf, Witness.randomLandmarks]
    have hb := C45_empty o c.top rows.length pc.d (fun i j => c.root (squared pc i j)) [] (pc.d + 1) s.nu s.radius (Or.inl rfl)
    simp only [main, hs, diagrams, h.load, htr', h0, dimensionOf, bind, Except.bind, hl, hn, hb]
    rfl
  · have hl : landmarksOf c shuffle first s.random pc ⌊rows.length * s.fraction⌋₊ = .error (if s.random then .undefined else .exception) := by
      unfold landmarksOf
      cases s.random with
      | false =>
        simp only [Bool.false_eq_true, if_false, (C45_max_min_range c.top c.bot pc.n (squared pc) first _).1 (by rw [hn]; exact hlt)]
      | true =>
        have : Witness.randomLandmarks shuffle pc.n ⌊rows.length * s.fraction⌋₊ = none := by
          unfold Witness.randomLandmarks
          rw [if_neg]
          rw [(hshuffle _).length_eq, List.length_range, hn]
          omega
        simp only [if_true, this]
    simp only [main, hs, diagrams, h.load, htr, dimensionOf, bind, Except.bind, hl]

/-- C167. Disagreement: without options, memory is read out of bounds unless there are at least twenty points. -/
theorem _root_.Aleph.C167_default (c : Context ℝ) (hc : c.Exact) (o : Orders ℝ) (shuffle : List ℕ → List ℕ) (hshuffle : ∀ l, (shuffle l).Perm l) (first : ℕ)
    (files : List Char → Option (List Char)) (input a : List Char) (pc : PointCloud ℝ) (rows : List (List ℝ)) (h : IsCloud c (files input) pc rows)
    (hfirst : first < rows.length) (hfew : rows.length < 20) : main c o shuffle first files [] [input, a] = .error .undefined := by
  have hcast : (rows.length : ℝ) < 20 := by exact_mod_cast hfew
  have hfl : ⌊(rows.length : ℝ) * (1 / 10)⌋₊ < 2 := by
    rw [Nat.floor_lt (by positivity)]
    push_cast
    linarith
  refine (C167_few_landmarks c hc o shuffle hshuffle first files [] ⟨1 / 10, 2, 0, false⟩ rfl (by norm_num) input a pc rows h hfirst).1 ?_ (by simp) ?_
  · show ⌊(rows.length : ℝ) * (1 / 10)⌋₊ ≤ rows.length
    omega
  · show max 1 ⌊(rows.length : ℝ) * (1 / 10)⌋₊ < 2
    omega

/-- C167. Files are read as described for C72.  Disagreement: a file that does not exist is not an error; there is no output at all. -/
theorem _root_.Aleph.C167_input {α : Type} [Field α] [LinearOrder α] (c : Context α) (o : Orders α) (shuffle : List ℕ → List ℕ) (first : ℕ)
    (files : List Char → Option (List Char)) (opts : List Opt) (s : Settings α) (hs : settings c opts = some s) (htr : c.truncate 0 = some 0) (input a : List Char) :
    (∀ text pc, files input = some text → (loadPoints c (files input) = .ok pc ↔ PointCloud.load c.convert text = some pc)) ∧
    (files input = none → main c o shuffle first files opts [input, a] = .ok (0, [])) := by
  refine ⟨fun text pc e => ?_, fun e => ?_⟩
  · unfold loadPoints
    rw [e]
    simp only
    cases PointCloud.load c.convert text <;> simp
  · have hload : loadPoints c none = .ok PointCloud.empty := rfl
    have htr' : c.truncate (((PointCloud.empty : PointCloud α).n : α) * s.fraction) = some 0 := by
      rw [show (PointCloud.empty : PointCloud α).n = 0 from rfl, Nat.cast_zero, zero_mul, htr]
    obtain ⟨l, hl⟩ : ∃ l, landmarksOf c shuffle first s.random PointCloud.empty 0 = .ok l := by
      unfold landmarksOf
      cases s.random with
      | false =>
        exact ⟨[first], by simp only [Bool.false_eq_true, if_false, (C45_max_min_range c.top c.bot _ (squared PointCloud.empty) first 0).2]⟩
      | true => exact ⟨[], by simp [Witness.randomLandmarks]⟩
    have hb := C45_empty o c.top (PointCloud.empty : PointCloud α).n (PointCloud.empty : PointCloud α).d (fun i j => c.root (squared PointCloud.empty i j)) l
      ((PointCloud.empty : PointCloud α).d + 1) s.nu s.radius (Or.inr rfl)
    simp only [main, hs, diagrams, e, hload, htr', dimensionOf, bind, Except.bind, hl, hb]
    rfl

/-! ### Concrete points -/

/-- Rational numbers with the square roots that are needed. -/
def demo : Context ℚ where
  inf := 1000
  top := 900
  bot := -900
  root x := if x = 1 then 1 else if x = 4 then 2 else if x = 9 then 3 else if x = 16 then 4 else if x = 25 then 5 else 0
  convert w := ((w.headD '0').toNat - 48 : ℕ)
  stod w := if w = "0.5".toList then some (1 / 2) else none
  stoul w := if w.all Char.isDigit then some (w.foldl (fun n c => 10 * n + (c.toNat - 48)) 0) else none
  truncate x := some ⌊x⌋.toNat
  print x := if x = 1000 then "inf".toList else if x.den = 1 then Utilities.decimal x.num.natAbs else ['?']

/-- Six points of a line; the landmarks are 0, 5 and 2, whose edges have the witnesses 1 and 3. -/
example : main demo (Orders.default ℚ) id 0 (fun _ => some "0\n1\n2\n3\n4\n5\n".toList) [.landmarks "0.5".toList] ["x".toList, "?".toList] =
    .ok (0, "# Persistence diagram <x>\n#\n# Dimension: 0\n# Entries  : 3\n0\tinf\n0\t2\n0\t1\n\n\n".toList) := by
  decide +kernel

/-- The dimension is ignored, unless there is a third argument; a single landmark is not enough. -/
example : main demo (Orders.default ℚ) id 0 (fun _ => some "0\n1\n2\n3\n4\n5\n".toList) [.landmarks "0.5".toList] ["x".toList, "?".toList, []] = .error .exception ∧
    main demo (Orders.default ℚ) id 0 (fun _ => some "0\n1\n2\n3\n4\n5\n".toList) [] ["x".toList, "?".toList] = .error .undefined := by
  constructor <;> decide +kernel

/-- The hypotheses of `C167_output_partial` hold. -/
example : ∃ c : Context ℝ, c.Exact ∧ (∀ text, loadPoints c (some text) = .ok ⟨2, 1, [0, 3]⟩ → IsCloud c (some text) ⟨2, 1, [0, 3]⟩ [[0], [3]]) ∧
    IsWitnessDimension c.stoul 1 [['?']] 2 ∧ (2 : ℕ) ≤ ⌊(([[(0 : ℝ)], [3]] : List (List ℝ)).length : ℝ) * 1⌋₊ ∧ ripsSize 2 2 ≤ idxMax := by
  refine ⟨⟨1000, 900, -900, Real.sqrt, fun _ => 0, fun _ => none, fun _ => none, fun x => some ⌊x⌋₊, fun _ => []⟩,
    ⟨rfl, fun _ _ => rfl, by norm_num, by norm_num⟩, fun text ht => ⟨ht, ⟨rfl, by simp, rfl⟩, ?_⟩, Or.inl ⟨rfl, rfl⟩, by simp, by decide⟩
  intro i hi j hj
  have key : pointDistance [[0], [3]] i j ≤ 3 := by
    unfold pointDistance
    rw [Real.sqrt_le_left (by norm_num)]
    simp only [List.length_cons, List.length_nil] at hi hj
    have hi' : i = 0 ∨ i = 1 := by omega
    have hj' : j = 0 ∨ j = 1 := by omega
    rcases hi' with rfl | rfl <;> rcases hj' with rfl | rfl <;> norm_num
  have h0 : 0 ≤ pointDistance [[0], [3]] i j := Real.sqrt_nonneg _
  simp only
  constructor <;> nlinarith

end Aleph.WitnessExample
