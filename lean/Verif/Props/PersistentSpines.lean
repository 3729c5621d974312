import Verif.Model.PersistentSpines
import Verif.Spec.PersistentSpines
import Verif.Lemmas.LexOrder
import Verif.Lemmas.Options
import Verif.Props.Cech
import Verif.Props.PointCloud
import Verif.Props.Spine
import Verif.Props.Tikz
import Mathlib.Analysis.InnerProductSpace.PiL2

/-!
# C180: the tool `persistent_spines`
-/

namespace Aleph.PersistentSpines

open Finset Spec

/-! ### Options -/

/-- The argument of an option for the radius. -/
def Opt.radiusWord : Opt → Option (List Char)
  | .radius w => some w
  | _ => none

/-- The argument of the long option for the method. -/
def Opt.methodWord : Opt → Option (List Char)
  | .method w => some w
  | _ => none

/-- Options whose arguments can be used. -/
def Good (c : Context) (o : Opt) : Prop := o ≠ .methodShort ∧ ∀ w, o = .radius w → c.stod w ≠ none

theorem setOption_good (c : Context) {o : Opt} (h : Good c o) (s : Settings) : ∃ s', setOption c s o = .ok s' := by
  cases o with
  | radius w =>
    cases e : c.stod w with
    | none => exact absurd e (h.2 w rfl)
    | some r => exact ⟨_, by simp only [setOption, e]; rfl⟩
  | method w => exact ⟨_, rfl⟩
  | methodShort => exact absurd rfl h.1
  | tikz => exact ⟨_, rfl⟩
  | unknown => exact ⟨_, rfl⟩

/-- The loop over options that succeeds as an optional value. -/
theorem fold_option (c : Context) {opts : List Opt} {init s : Settings} (h : opts.foldlM (setOption c) init = .ok s) :
    opts.foldlM (fun s o => (setOption c s o).toOption) init = some s := by
  induction opts generalizing init with
  | nil =>
    simp only [List.foldlM_nil, pure, Except.pure, Except.ok.injEq] at h
    simp [pure, h]
  | cons o l ih =>
    rw [List.foldlM_cons] at h ⊢
    cases e : setOption c init o with
    | error x =>
      rw [e] at h
      cases h
    | ok t =>
      rw [e] at h
      exact ih h

theorem settings_ok (c : Context) {opts : List Opt} (h : ∀ o ∈ opts, Good c o) : ∃ s, settings c opts = .ok s := by
  unfold settings
  generalize (⟨"dumb".toList, 0, false⟩ : Settings) = init
  induction opts generalizing init with
  | nil => exact ⟨_, rfl⟩
  | cons o l ih =>
    obtain ⟨t, e⟩ := setOption_good c (h o (by simp)) init
    rw [List.foldlM_cons, e]
    exact ih (fun o ho => h o (by simp [ho])) t

theorem settings_spec (c : Context) {opts : List Opt} {s : Settings} (h : settings c opts = .ok s) :
    IsLastValue Opt.methodWord some "dumb".toList opts s.method ∧ IsLastValue Opt.radiusWord c.stod 0 opts s.radius ∧ (s.tikz = true ↔ Opt.tikz ∈ opts) := by
  have hf := fold_option c h
  have step : ∀ (s : Settings) o s', (setOption c s o).toOption = some s' → setOption c s o = .ok s' := by
    intro s o s' e
    cases h' : setOption c s o with
    | error x =>
      rw [h'] at e
      cases e
    | ok t =>
      rw [h'] at e
      cases e
      rfl
  refine ⟨?_, ?_, ?_⟩
  · refine lastValue_of_foldlM (get := Settings.method) ?_ ?_ hf
    · intro s o s' w hp h
      cases o <;> simp only [Opt.methodWord, Option.some.injEq, reduceCtorEq] at hp
      subst hp
      cases step _ _ _ h
      rfl
    · intro s o s' hp h
      have h := step _ _ _ h
      cases o with
      | radius w =>
        cases e : c.stod w with
        | none => simp [setOption, e] at h
        | some r =>
          simp only [setOption, e, Except.ok.injEq] at h
          rw [← h]
      | method w => simp [Opt.methodWord] at hp
      | methodShort => cases h
      | tikz => cases h; rfl
      | unknown => cases h; rfl
  · refine lastValue_of_foldlM (get := Settings.radius) ?_ ?_ hf
    · intro s o s' w hp h
      cases o <;> simp only [Opt.radiusWord, Option.some.injEq, reduceCtorEq] at hp
      subst hp
      have h := step _ _ _ h
      rename_i w _
      · cases e : c.stod w with
        | none => simp [setOption, e] at h
        | some r =>
          simp only [setOption, e, Except.ok.injEq] at h
          rw [← h]
    · intro s o s' hp h
      have h := step _ _ _ h
      cases o with
      | radius w => simp [Opt.radiusWord] at hp
      | method w => cases h; rfl
      | methodShort => cases h
      | tikz => cases h; rfl
      | unknown => cases h; rfl
  · clear hf
    unfold settings at h
    suffices H : ∀ init : Settings, opts.foldlM (setOption c) init = .ok s → (s.tikz = true ↔ init.tikz = true ∨ Opt.tikz ∈ opts) by
      simpa using H _ h
    clear h
    induction opts with
    | nil =>
      intro init h
      cases h
      simp
    | cons o l ih =>
      intro init h
      rw [List.foldlM_cons] at h
      cases e : setOption c init o with
      | error x =>
        rw [e] at h
        cases h
      | ok t =>
        rw [e] at h
        rw [ih t h]
        cases o with
        | radius w =>
          cases e' : c.stod w with
          | none => simp [setOption, e'] at e
          | some r =>
            simp only [setOption, e', Except.ok.injEq] at e
            rw [← e]
            simp
        | method w => cases e; simp
        | methodShort => cases e
        | tikz => cases e; simp
        | unknown => cases e; simp

/-- The first option that cannot be used determines what happens. -/
theorem settings_error (c : Context) {before after : List Opt} {o : Opt} {e : Tikz.Failure} (h : ∀ o ∈ before, Good c o) (ho : ∀ s, setOption c s o = .error e) :
    settings c (before ++ o :: after) = .error e := by
  obtain ⟨s, hs⟩ := settings_ok c h
  unfold settings at hs ⊢
  rw [List.foldlM_append, hs]
  change (o :: after).foldlM (setOption c) s = _
  rw [List.foldlM_cons, ho]
  rfl

/-! ### Čech complexes -/

/-- Points with `d` coordinates. -/
abbrev Vec (d : ℕ) := {z : List ℝ // z.length = d}

theorem sum_sq_self (x : List ℝ) : squaredEuclidean x x = 0 := by
  unfold squaredEuclidean
  rw [List.zipWith_self]
  simp

theorem sum_sq_nonneg (x z : List ℝ) : 0 ≤ squaredEuclidean x z := by
  unfold squaredEuclidean
  refine List.sum_nonneg ?_
  intro y hy
  obtain ⟨i, hi, rfl⟩ := List.getElem_of_mem hy
  rw [List.getElem_zipWith]
  positivity

theorem build_map {α P Q : Type} [LinearOrder α] [Mul α] [OfNat α 2] (f : Q → P) (ball : List P → α) (root : α → α) (d0 : α) (n : ℕ) (point : ℕ → Q) (r : α) :
    Cech.buildCechComplex ball root d0 n (fun i => f (point i)) r = Cech.buildCechComplex (fun c => ball (c.map f)) root d0 n point r := by
  have hv : Cech.visit ball root (fun i => f (point i)) (r * r) = Cech.visit (fun c => ball (c.map f)) root point (r * r) := by
    funext l c
    simp only [Cech.visit, List.map_map]
    rfl
  have hl : ∀ ds vs ss, Cech.loop ball root (fun i => f (point i)) (r * r) ds vs ss = Cech.loop (fun c => ball (c.map f)) root point (r * r) ds vs ss := by
    intro ds
    induction ds with
    | nil => intros; rfl
    | cons d ds ih =>
      intro vs ss
      simp only [Cech.loop, hv, ih]
  unfold Cech.buildCechComplex
  simp only [hl]

theorem cech_spec (c : Context) {pc : PointCloud ℝ} {rows : List (List ℝ)} (hpc : pc.Has rows) (hb : IsMiniballOf pc.d (c.ball pc.d)) (r : ℚ) :
    ∃ K, cech c pc r = some K ∧ IsCech rows pc.d r K ∧ FaceClosed K := by
  have hpoint : ∀ i, (point pc i).length = pc.d := by
    intro i
    unfold point
    rw [C71_get pc rows hpc]
    cases e : rows[i]? with
    | none => simp
    | some x => simpa using hpc.dimension x (List.mem_of_getElem? e)
  have hrow : ∀ i < rows.length, point pc i = rows.getD i [] := by
    intro i hi
    unfold point
    rw [C71_get pc rows hpc, List.getElem?_eq_getElem hi, List.getD_eq_getElem _ _ hi]
    rfl
  have hmini : IsMiniball (fun p q : Vec pc.d => squaredEuclidean p.1 q.1) fun l => c.ball pc.d (l.map Subtype.val) := by
    intro l hl
    have := hb (l.map Subtype.val) (by rw [Ne, List.map_eq_nil_iff]; exact hl) (by
      intro p hp
      obtain ⟨q, -, rfl⟩ := List.mem_map.1 hp
      exact q.2)
    refine ⟨?_, ?_⟩
    · obtain ⟨z, h1, h2⟩ := this.1
      exact ⟨⟨z, h1⟩, fun p hp => h2 _ (List.mem_map_of_mem hp)⟩
    · rintro s ⟨z, hz⟩
      refine this.2 ⟨z.1, z.2, ?_⟩
      intro p hp
      obtain ⟨q, hq, rfl⟩ := List.mem_map.1 hp
      exact hz q hq
  obtain ⟨L, h1, h2, h3, h4, h5, h6, h7, h8⟩ := C62_cech (fun p q : Vec pc.d => squaredEuclidean p.1 q.1) (fun p => sum_sq_self p.1) (fun p q => sum_sq_nonneg p.1 q.1) _ hmini Real.sqrt
    (fun x y _ h => ⟨Real.sqrt_nonneg x, Real.sqrt_le_sqrt h⟩) pc.n (fun i => ⟨point pc i, hpoint i⟩) r
  have hn : pc.n = rows.length := hpc.count
  have henc : ∀ t : Finset ℕ, (∀ v ∈ t, v < rows.length) → ∀ x : ℝ, (∃ z : Vec pc.d, ∀ v ∈ t, squaredEuclidean (point pc v) z.1 ≤ x) ↔
      ∃ z : List ℝ, z.length = pc.d ∧ ∀ v ∈ t, squaredEuclidean (rows.getD v []) z ≤ x := by
    intro t ht x
    constructor
    · rintro ⟨z, hz⟩
      exact ⟨z.1, z.2, fun v hv => by rw [← hrow v (ht v hv)]; exact hz v hv⟩
    · rintro ⟨z, hz, h⟩
      exact ⟨⟨z, hz⟩, fun v hv => by rw [hrow v (ht v hv)]; exact h v hv⟩
  refine ⟨L, (build_map Subtype.val _ _ _ _ (fun i => (⟨point pc i, hpoint i⟩ : Vec pc.d)) _).trans h1, ⟨h2, ?_, h4, ?_, h8, h7⟩, h6⟩
  · intro t
    rw [h3, hn]
    refine and_congr_right fun _ => and_congr_right fun ht => henc t ht _
  · intro s hs hc
    obtain ⟨b, ⟨hb1, hb2⟩, hd⟩ := h5 s hs hc
    have ht : ∀ v ∈ s.vset, v < rows.length := by
      rw [← hn]
      exact ((h3 s.vset).1 ⟨s, hs, rfl⟩).2.1
    obtain ⟨v0, hv0⟩ : s.vset.Nonempty := card_pos.1 (by omega)
    have hb0 : 0 ≤ b := by
      obtain ⟨z, hz⟩ := hb1
      exact (sum_sq_nonneg _ _).trans (hz v0 hv0)
    rw [hd, mul_div_cancel_left₀ _ two_ne_zero]
    refine ⟨⟨Real.sqrt_nonneg b, ?_⟩, ?_⟩
    · unfold Enclosed
      rw [Real.sq_sqrt hb0]
      exact (henc _ ht b).1 hb1
    · rintro x ⟨hx0, hx⟩
      exact Real.sqrt_le_iff.2 ⟨hx0, hb2 ((henc _ ht _).2 hx)⟩

theorem spine_spec (c : Context) (method : List Char) {K : Complex ℝ} (hK : WF K) (hc : FaceClosed K) : ∃ L, spine c method K = some L ∧ IsSpineOf K L := by
  unfold spine
  split
  · obtain ⟨L, h1, h2, h3, h4, h5⟩ := C33_dumb_spine c.pick K hK hc
    exact ⟨L, h1, h2, h4, h3, h5, C33_homology c.pick K hK hc L (Or.inr h1)⟩
  · obtain ⟨L, h1, h2, h3, h4, h5⟩ := C33_spine c.pick K hK hc
    exact ⟨L, h1, h2, h4, h3, h5, C33_homology c.pick K hK hc L (Or.inl h1)⟩

/-! ### Output -/

theorem complexText_spec (c : Context) (K : Complex ℝ) : IsComplexText c.print K (complexText c K) := by
  constructor
  · rintro rfl
    rfl
  · intro hK
    refine ⟨_, K.map (simplexText c), rfl, ?_, ?_⟩
    · rw [List.forall₂_map_right_iff, List.forall₂_same]
      intro s _
      refine ⟨s.vertices.map Utilities.decimal, ?_, _, ?_, ?_, rfl⟩
      · rw [List.forall₂_map_right_iff, List.forall₂_same]
        intro v _
        exact Tikz.decimal_spec v
      · intro h
        simp [h]
      · intro h
        simp [h]
    · have : K.isEmpty = false := by simpa using hK
      unfold complexText
      rw [this]
      simp only [Bool.false_eq_true, if_false, List.cons_append, List.flatMap_cons, List.flatMap_append, List.flatMap_map, List.flatMap_nil, List.append_nil, List.append_assoc]
      rfl

/-- What the tool does for a point cloud. -/
theorem process_spec (c : Context) (s : Settings) {pc : PointCloud ℝ} {rows : List (List ℝ)} (hpc : pc.Has rows) (hb : IsMiniballOf pc.d (c.ball pc.d)) :
    ∃ K L, IsCech rows pc.d s.radius K ∧ FaceClosed K ∧ IsSpineOf K L ∧ process c s pc = (output c s pc K L).map fun text => (0, text) := by
  obtain ⟨K, h1, h2, h3⟩ := cech_spec c hpc hb s.radius
  obtain ⟨L, h4, h5⟩ := spine_spec c s.method h2.wf h3
  refine ⟨K, L, h2, h3, h5, ?_⟩
  unfold process
  simp only [h1, h4]
  cases output c s pc K L <;> rfl

/-- C180. The text consists of the Čech complex of the points for the given radius, with one line for each simplex, and of one of its spines, separated by an empty line.  Missing: the short option for the
method, see `C180_failures`. -/
theorem _root_.Aleph.C180_text_partial (c : Context) (files : List Char → Option (List Char)) (opts : List Opt) (hv : ∀ o ∈ opts, Good c o) (filename : List Char) (more : List (List Char))
    (text : List Char) (hfile : files filename = some text) (pc : PointCloud ℝ) (hload : PointCloud.load c.convert text = some pc) (rows : List (List ℝ)) (hpc : pc.Has rows)
    (hb : IsMiniballOf pc.d (c.ball pc.d)) (ht : Opt.tikz ∉ opts) :
    ∃ r K L t₁ t₂, IsLastValue Opt.radiusWord c.stod 0 opts r ∧ IsCech rows pc.d r K ∧ IsSpineOf K L ∧ IsComplexText c.print K t₁ ∧ IsComplexText c.print L t₂ ∧
      main c files opts (filename :: more) = .ok (0, t₁ ++ "\n\n".toList ++ t₂ ++ "\n".toList) := by
  obtain ⟨s, hs⟩ := settings_ok c hv
  obtain ⟨k1, k2, k3⟩ := settings_spec c hs
  obtain ⟨K, L, h1, -, h2, h3⟩ := process_spec c s hpc hb
  refine ⟨s.radius, K, L, _, _, k2, h1, h2, complexText_spec c K, complexText_spec c L, ?_⟩
  have : s.tikz = false := by
    rw [← Bool.not_eq_true, k3]
    exact ht
  unfold main
  simp only [hs, hfile, hload, h3, output, this]
  simp only [Bool.false_eq_true, if_false, Except.map]
  congr 2
  simp

theorem container_eq {pc : PointCloud ℝ} {rows : List (List ℝ)} (hpc : pc.Has rows) : (List.range pc.n).map (point pc) = rows := by
  have hn : pc.n = rows.length := hpc.count
  refine List.ext_getElem (by simp [hn]) ?_
  intro i h1 h2
  rw [List.getElem_map, List.getElem_range]
  unfold point
  rw [C71_get pc rows hpc, List.getElem?_eq_getElem h2]
  rfl

theorem firstOptions_reachable (r : ℚ) : Tikz.Reachable (firstOptions r) :=
  .triangleOpacity _ _ (.triangleColour _ _ (.triangles _ _ (.ballRadius _ _ (.balls _ _ (.pointSize _ _ .default)))))

theorem secondOptions_reachable (r : ℚ) : Tikz.Reachable (secondOptions r) := .lineColour _ _ (.pointColour _ _ (.balls _ _ (firstOptions_reachable r)))

theorem pictureStyle_plain {number : ℚ → List Char} (h : ∀ x, '\n' ∉ number x) (r : ℚ) {colour : List Char} (hc : '\n' ∉ colour) : Tikz.Plain (pictureStyle number r colour) :=
  ⟨hc, h _, show '\n' ∉ "black".toList by decide, h _, h _, show '\n' ∉ "cb-1".toList by decide, h _, hc, h _⟩

theorem vertices_rows {rows : List (List ℝ)} {d : ℕ} {r : ℝ} {K L : Complex ℝ} (hK : IsCech rows d r K) (hL : L.Sublist K) {u : ℕ} (hu : u ∈ Plot.vertices L) : u < rows.length := by
  obtain ⟨s, hs, e⟩ := Tikz.mem_vertices.1 hu
  exact ((hK.simplices {u}).1 ⟨s, hL.subset hs, by simp [Simplex.vset, e]⟩).2.1 u (by simp)

theorem declared_of_closed {o : Tikz.Options} {K : Complex ℝ} (hK : WF K) (hc : FaceClosed K) {rows : List (List ℝ)} (h : ∀ u ∈ Plot.vertices K, ∃ p, rows[u]? = some p ∧ 2 ≤ p.length) :
    Tikz.Declared (Tikz.commands o.showBalls o.showTriangles rows K) := by
  refine (Aleph.Tikz.declared_iff K rows h).2 ?_
  intro s hs _ v hv
  obtain ⟨t, ht, e⟩ := hc s hs {v} (by simpa [Simplex.vset] using hv) (by simp)
  exact ⟨t, ht, vertices_single hK ht e⟩

/-- C180. On request, the output is a document with two pictures: one of the Čech complex of the points, with their balls, and one of its spine, in another colour.  All positions are declared before they
are used. -/
theorem _root_.Aleph.C180_pictures (c : Context) (files : List Char → Option (List Char)) (opts : List Opt) (hv : ∀ o ∈ opts, Good c o) (filename : List Char) (more : List (List Char))
    (text : List Char) (hfile : files filename = some text) (pc : PointCloud ℝ) (hload : PointCloud.load c.convert text = some pc) (rows : List (List ℝ)) (hpc : pc.Has rows)
    (hb : IsMiniballOf pc.d (c.ball pc.d)) (ht : Opt.tikz ∈ opts) (hd : 2 ≤ pc.d) (hprint : ∀ x, '\n' ∉ c.print x) (hnumber : ∀ x, '\n' ∉ c.number x) :
    ∃ r K L p₁ p₂, IsLastValue Opt.radiusWord c.stod 0 opts r ∧ IsCech rows pc.d r K ∧ IsSpineOf K L ∧
      Tikz.Picture c.print (pictureStyle c.number r "black".toList) (Tikz.commands true true rows K) p₁ ∧ Tikz.Declared (Tikz.commands true true rows K) ∧
      Tikz.Picture c.print (pictureStyle c.number r "cb-2".toList) (Tikz.commands false true rows L) p₂ ∧ Tikz.Declared (Tikz.commands false true rows L) ∧
      main c files opts (filename :: more) = .ok (0, (documentHead.flatMap fun l => l ++ ['\n']) ++ p₁ ++ "\n\n".toList ++ p₂ ++ "\\end{document}\n".toList) := by
  obtain ⟨s, hs⟩ := settings_ok c hv
  obtain ⟨k1, k2, k3⟩ := settings_spec c hs
  obtain ⟨K, L, h1, h0, h2, h3⟩ := process_spec c s hpc hb
  have hvert : ∀ M : Complex ℝ, M.Sublist K → ∀ u ∈ Plot.vertices M, ∃ p, rows[u]? = some p ∧ 2 ≤ p.length := by
    intro M hM u hu
    have hul := vertices_rows h1 hM hu
    exact ⟨rows[u], List.getElem?_eq_getElem hul, by rw [hpc.dimension _ (List.getElem_mem hul)]; exact hd⟩
  obtain ⟨p₁, a1, a2⟩ := C140_picture (firstOptions_reachable s.radius) c.print c.number K rows hprint (pictureStyle_plain hnumber s.radius (colour := "black".toList) (by decide)) (hvert K (List.Sublist.refl K))
  obtain ⟨p₂, b1, b2⟩ := C140_picture (secondOptions_reachable s.radius) c.print c.number L rows hprint (pictureStyle_plain hnumber s.radius (colour := "cb-2".toList) (by decide)) (hvert L h2.sublist)
  refine ⟨s.radius, K, L, p₁, p₂, k2, h1, h2, a2, declared_of_closed (o := firstOptions s.radius) h1.wf h0 (hvert K (List.Sublist.refl K)), b2,
    declared_of_closed (o := secondOptions s.radius) (h1.wf.sublist h2.sublist) h2.closed (hvert L h2.sublist), ?_⟩
  unfold main
  simp only [hs, hfile, hload, h3, output, k3.2 ht, if_true]
  unfold pictures
  simp only [container_eq hpc, a1, b1, bind, Except.bind, Except.map]
  rfl

/-- C180. The first option that cannot be used determines what happens: a radius that is not a number raises an exception, and the short option for the method, which has no argument, leads to undefined
behaviour.  Without arguments the tool fails, points with different numbers of coordinates raise an exception, and so do pictures of points with fewer than two coordinates.  A file that cannot be opened is
treated as if it contained no points. -/
theorem _root_.Aleph.C180_failures (c : Context) (files : List Char → Option (List Char)) (opts : List Opt) :
    (∀ before after w args, opts = before ++ .radius w :: after → (∀ o ∈ before, Good c o) → c.stod w = none → main c files opts args = .error .exception) ∧
    (∀ before after args, opts = before ++ .methodShort :: after → (∀ o ∈ before, Good c o) → main c files opts args = .error .undefined) ∧
    ((∀ o ∈ opts, Good c o) → main c files opts [] = .ok (-1, []) ∧
      (∀ filename more text, files filename = some text → PointCloud.load c.convert text = none → main c files opts (filename :: more) = .error .exception) ∧
      (∀ filename more text pc rows, files filename = some text → PointCloud.load c.convert text = some pc → pc.Has rows → IsMiniballOf pc.d (c.ball pc.d) → rows ≠ [] → pc.d < 2 → Opt.tikz ∈ opts →
        main c files opts (filename :: more) = .error .exception) ∧
      (∀ filename more, files filename = none → IsMiniballOf 0 (c.ball 0) → Opt.tikz ∉ opts → main c files opts (filename :: more) = .ok (0, "\n\n\n".toList))) := by
  refine ⟨?_, ?_, fun hv => ?_⟩
  · rintro before after w args rfl h1 h2
    unfold main
    rw [settings_error c (e := .exception) h1 (fun s => by simp [setOption, h2])]
  · rintro before after args rfl h1
    unfold main
    rw [settings_error c (e := .undefined) h1 (fun s => rfl)]
  · obtain ⟨s, hs⟩ := settings_ok c hv
    obtain ⟨k1, k2, k3⟩ := settings_spec c hs
    refine ⟨by unfold main; simp only [hs], ?_, ?_, ?_⟩
    · intro filename more text h1 h2
      unfold main
      simp only [hs, h1, h2]
    · intro filename more text pc rows hfile hload hpc hb hne hd ht
      obtain ⟨K, L, h1, h0, h2, h3⟩ := process_spec c s hpc hb
      unfold main
      simp only [hs, hfile, hload, h3, output, k3.2 ht, if_true]
      unfold pictures
      obtain ⟨u, b, e⟩ : ∃ u b, Plot.vertices K = u :: b := by
        have h0 : 0 < rows.length := List.length_pos_iff.2 hne
        obtain ⟨x, hx, e⟩ : Has K {0} := (h1.simplices {0}).2 ⟨by simp, by simpa using h0, rows.getD 0 [], by
          rw [List.getD_eq_getElem _ _ h0]
          exact hpc.dimension _ (List.getElem_mem h0), by
          intro v hv
          rw [mem_singleton.1 hv, sum_sq_self]
          positivity⟩
        have := Tikz.mem_vertices.2 ⟨x, hx, vertices_single h1.wf hx e⟩
        cases hl : Plot.vertices K with
        | nil =>
          rw [hl] at this
          simp at this
        | cons u b => exact ⟨u, b, rfl⟩
      have hul := vertices_rows h1 (List.Sublist.refl K) (u := u) (by rw [e]; simp)
      have := (C140_error (firstOptions s.radius) c.print c.number K rows [] b u e (by simp)).1 rows[u] (List.getElem?_eq_getElem hul)
        (by rw [hpc.dimension _ (List.getElem_mem hul)]; exact hd)
      simp only [container_eq hpc, this, bind, Except.bind, Except.map]
    · intro filename more hfile hb ht
      obtain ⟨K, L, h1, h0, h2, h3⟩ := process_spec c s (pc := PointCloud.empty) (rows := []) ⟨rfl, by simp, rfl⟩ hb
      have hK : K = [] := by
        rw [List.eq_nil_iff_forall_not_mem]
        intro x hx
        obtain ⟨⟨v, hv⟩, h, -⟩ := (h1.simplices x.vset).1 ⟨x, hx, rfl⟩
        simpa using h v hv
      have hL : L = [] := by
        have := h2.sublist
        rw [hK] at this
        exact List.sublist_nil.1 this
      have : s.tikz = false := by
        rw [← Bool.not_eq_true, k3]
        exact ht
      unfold main
      simp only [hs, hfile, h3, output, this, hK, hL]
      rfl

/-! ### Examples -/

/-- The contract of `Miniball` can be met. -/
theorem exists_isMiniballOf (d : ℕ) : ∃ ball, IsMiniballOf d ball := by
  obtain ⟨b, hb⟩ := exists_isMiniball (EuclideanSpace ℝ (Fin d))
  let f : List ℝ → EuclideanSpace ℝ (Fin d) := fun l => WithLp.toLp 2 fun i : Fin d => l.getD i 0
  have hdist : ∀ p z : List ℝ, p.length = d → z.length = d → dist (f p) (f z) ^ 2 = squaredEuclidean p z := by
    intro p z hp hz
    rw [EuclideanSpace.dist_eq, Real.sq_sqrt (Finset.sum_nonneg fun i _ => sq_nonneg _)]
    unfold squaredEuclidean
    have : List.zipWith (fun a b : ℝ => (a - b) ^ 2) p z = List.ofFn fun i : Fin d => (p.getD i 0 - z.getD i 0) ^ 2 := by
      refine List.ext_getElem (by simp [hp, hz]) ?_
      intro i h1 h2
      rw [List.getElem_zipWith, List.getElem_ofFn, List.getD_eq_getElem, List.getD_eq_getElem]
    rw [this, List.sum_ofFn]
    refine sum_congr rfl fun i _ => ?_
    rw [Real.dist_eq, sq_abs]
  refine ⟨fun c => b (c.map f), fun c hc hd => ?_⟩
  obtain ⟨⟨z, h1⟩, h2⟩ := hb (c.map f) (by simpa using hc)
  refine ⟨⟨List.ofFn fun i => z i, by simp, ?_⟩, ?_⟩
  · intro p hp
    rw [← hdist p _ (hd p hp) (by simp)]
    have hz : f (List.ofFn fun i => z i) = z := by
      ext i
      simp [f]
    rw [hz]
    exact h1 _ (List.mem_map_of_mem hp)
  · rintro s ⟨z, hz, h⟩
    refine h2 ⟨f z, ?_⟩
    intro q hq
    obtain ⟨p, hp, rfl⟩ := List.mem_map.1 hq
    exact (hdist p z (hd p hp) hz).trans_le (h p hp)

/-- The hypotheses of the theorems can be met: a file with three points in the plane, and a radius. -/
example : ∃ c : Context, (∀ o ∈ [Opt.radius "1".toList, .tikz], Good c o) ∧ PointCloud.load c.convert "0 0\n1 0\n5 5\n".toList = some ⟨3, 2, [0, 0, 1, 0, 5, 5]⟩ ∧
    (⟨3, 2, [0, 0, 1, 0, 5, 5]⟩ : PointCloud ℝ).Has [[0, 0], [1, 0], [5, 5]] ∧ IsMiniballOf 2 (c.ball 2) ∧ (∀ x, '\n' ∉ c.print x) ∧ (∀ x, '\n' ∉ c.number x) ∧
    Enclosed [[0, 0], [1, 0], [5, 5]] 2 {0, 1} 1 := by
  refine ⟨⟨fun w => if w = ['1'] then 1 else if w = ['5'] then 5 else 0, fun _ => some 1, fun _ => [], fun _ => [], fun d => (exists_isMiniballOf d).choose, fun _ => 0⟩, ?_, rfl, ⟨rfl, by simp, rfl⟩,
    (exists_isMiniballOf 2).choose_spec, by simp, by simp, [0, 0], rfl, ?_⟩
  · intro o ho
    simp only [List.mem_cons, List.not_mem_nil, or_false] at ho
    rcases ho with rfl | rfl <;> exact ⟨by simp, by simp⟩
  · intro v hv
    simp only [mem_insert, mem_singleton] at hv
    rcases hv with rfl | rfl <;> norm_num [squaredEuclidean]

end Aleph.PersistentSpines
