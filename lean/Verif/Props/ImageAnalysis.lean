import Verif.Lemmas.LevelDiagrams
import Verif.Model.ImageAnalysis
import Verif.Props.Components
import Verif.Props.FunctionAnalysis
import Verif.Props.MatrixReader
import Verif.Props.RelevantEdges
import Verif.Spec.ImageAnalysis

/-!
# C166: the example `image_analysis`
-/

namespace Aleph.ImageAnalysis

open Finset Spec MatrixReader

variable {α : Type}

/-! ### The complex of an image -/

theorem follows_cell {w : ℕ} {P : Finset (ℕ × ℕ)} (hw : ∀ p ∈ P, p.2 < w) :
    (P.Nonempty ∧ ∀ p ∈ P, ∀ q ∈ P, p.1 ≤ q.1 + 1 ∧ p.2 ≤ q.2 + 1 ∧ (p ≤ q ∨ q ≤ p)) ↔
      P.Nonempty ∧ ∀ p ∈ P, ∀ q ∈ P, w * p.1 + p.2 ≤ w * q.1 + q.2 → p.1 ≤ q.1 ∧ q.1 ≤ p.1 + 1 ∧ p.2 ≤ q.2 ∧ q.2 ≤ p.2 + 1 := by
  refine and_congr_right fun _ => ⟨fun h p hp q hq hle => ?_, fun h p hp q hq => ?_⟩
  · obtain ⟨h1, h2, h3⟩ := h p hp q hq
    obtain ⟨h4, h5, -⟩ := h q hq p hp
    have hp2 := hw p hp
    have hq2 := hw q hq
    rcases h3 with h3 | h3
    · exact ⟨h3.1, h4, h3.2, h5⟩
    · have e1 : q.1 ≤ p.1 := h3.1
      have e2 : q.2 ≤ p.2 := h3.2
      have e3 : w * q.1 ≤ w * p.1 := Nat.mul_le_mul_left _ e1
      have e4 : p.1 = q.1 := by
        by_contra hne
        have : w * (q.1 + 1) ≤ w * p.1 := Nat.mul_le_mul_left _ (by omega)
        rw [Nat.mul_add] at this
        omega
      refine ⟨by omega, by omega, ?_, by omega⟩
      rw [e4] at hle
      omega
  · rcases le_total (w * p.1 + p.2) (w * q.1 + q.2) with hle | hle
    · obtain ⟨h1, h2, h3, h4⟩ := h p hp q hq hle
      exact ⟨by omega, by omega, Or.inl ⟨h1, h3⟩⟩
    · obtain ⟨h1, h2, h3, h4⟩ := h q hq p hp hle
      exact ⟨by omega, by omega, Or.inr ⟨h1, h3⟩⟩

theorem code_div {w : ℕ} {p : ℕ × ℕ} (h : p.2 < w) : (w * p.1 + p.2) / w = p.1 ∧ (w * p.1 + p.2) % w = p.2 := by
  constructor
  · rw [Nat.mul_add_div (by omega), Nat.div_eq_of_lt h, Nat.add_zero]
  · rw [Nat.mul_add_mod, Nat.mod_eq_of_lt h]

theorem entry_lt {w : ℕ} {rows : List (List α)} (hr : ∀ r ∈ rows, r.length = w) {y x : ℕ} {a : α} (h : entry rows y x = some a) : y < rows.length ∧ x < w := by
  unfold entry at h
  obtain ⟨r, h1, h2⟩ := Option.bind_eq_some_iff.1 h
  obtain ⟨hy, rfl⟩ := List.getElem?_eq_some_iff.1 h1
  obtain ⟨hx, -⟩ := List.getElem?_eq_some_iff.1 h2
  rw [hr _ (List.getElem_mem hy)] at hx
  exact ⟨hy, hx⟩

/-- The complex of an image, described with the numbers of pixels. -/
theorem cells [LinearOrder α] {rows : List (List α)} {w : ℕ} (hw : 0 < w) (hne : rows ≠ []) (hr : ∀ r ∈ rows, r.length = w) :
    ∃ K, build true max rows.length w rows.flatten = some K ∧ IsFiltration K ∧ Spec.Monotone K ∧ K.length ≤ 6 * (rows.length * w) ∧
      (∀ s ∈ K, ∃ y x, entry rows y x = some s.data) ∧
      (∀ x, sublevel K x = imageCells w rows (· ≤ x)) ∧ sets K = imageCells w rows (fun _ => True) := by
  classical
  obtain ⟨K, h1, h2, h3⟩ := C73_maximum true rows w hw hne hr
  obtain ⟨K', h1', h4, -⟩ := C73_grid true max rows w hw hne hr
  obtain rfl : K = K' := Option.some.inj (h1.symm.trans h1')
  have key : ∀ (t : Finset ℕ) (p : α → Prop), (∃ s ∈ K, s.vset = t ∧ p s.data) → (∀ a b, a ≤ b → p b → p a) → t ∈ imageCells w rows p := by
    rintro t p ⟨s, hs, rfl, hp⟩ hmono
    obtain ⟨P, hP, -, hent, hcode, hgr⟩ := (h3 s.vset s.data).1 ⟨s, hs, rfl, rfl⟩
    have hlt : ∀ q ∈ P, q.1 < rows.length ∧ q.2 < w := fun q hq => by
      obtain ⟨a, ha⟩ := Option.isSome_iff_exists.1 (hent q hq)
      exact entry_lt hr ha
    obtain ⟨hPn, hPf⟩ := (follows_cell fun q hq => (hlt q hq).2).1 hP
    unfold imageCells
    rw [mem_filter, mem_powerset, hcode]
    refine ⟨?_, hPn.image _, ?_, ?_⟩
    · intro u hu
      obtain ⟨q, hq, rfl⟩ := mem_image.1 hu
      exact mem_range.2 (code_lt (hlt q hq).1 (hlt q hq).2)
    · intro u hu
      obtain ⟨q, hq, rfl⟩ := mem_image.1 hu
      obtain ⟨e1, e2⟩ := code_div (hlt q hq).2
      obtain ⟨a, ha⟩ := Option.isSome_iff_exists.1 (hent q hq)
      exact ⟨a, by rw [e1, e2]; exact ha, hmono _ _ (hgr.2 ⟨q, hq, ha⟩) hp⟩
    · intro u hu v hv huv
      obtain ⟨q, hq, rfl⟩ := mem_image.1 hu
      obtain ⟨q', hq', rfl⟩ := mem_image.1 hv
      obtain ⟨e1, e2⟩ := code_div (hlt q hq).2
      obtain ⟨e1', e2'⟩ := code_div (hlt q' hq').2
      unfold Follows
      rw [e1, e2, e1', e2']
      exact hPf q hq q' hq' huv
  have key' : ∀ (t : Finset ℕ) (p : α → Prop), t ∈ imageCells w rows p → ∃ s ∈ K, s.vset = t ∧ p s.data := by
    intro t p ht
    unfold imageCells at ht
    rw [mem_filter, mem_powerset] at ht
    obtain ⟨-, ht2, ht3, ht4⟩ := ht
    set P := t.image fun u => (u / w, u % w) with hPdef
    have hcode : t = P.image fun q => w * q.1 + q.2 := by
      rw [hPdef, image_image]
      ext u
      simp only [mem_image, Function.comp]
      constructor
      · intro hu
        exact ⟨u, hu, Nat.div_add_mod u w⟩
      · rintro ⟨v, hv, e⟩
        rw [Nat.div_add_mod] at e
        exact e ▸ hv
    have hPlt : ∀ q ∈ P, q.2 < w := by
      intro q hq
      obtain ⟨u, -, rfl⟩ := mem_image.1 hq
      exact Nat.mod_lt _ hw
    have hPe : ∀ q ∈ P, ∃ a, entry rows q.1 q.2 = some a ∧ p a := by
      intro q hq
      obtain ⟨u, hu, rfl⟩ := mem_image.1 hq
      exact ht3 u hu
    have hcell : IsGridCell P := (follows_cell hPlt).2 ⟨ht2.image _, by
      intro q hq q' hq' hle
      obtain ⟨u, hu, rfl⟩ := mem_image.1 hq
      obtain ⟨v, hv, rfl⟩ := mem_image.1 hq'
      simp only [Nat.div_add_mod] at hle
      exact ht4 u hu v hv hle⟩
    have hgr : ∃ a, IsGreatest {v | ∃ q ∈ P, entry rows q.1 q.2 = some v} a := by
      have : Nonempty α := by
        obtain ⟨u, hu⟩ := ht2
        exact ⟨(ht3 u hu).choose⟩
      choose! f hf1 hf2 using hPe
      obtain ⟨q, hq, hmax⟩ := exists_max_image P f (ht2.image _)
      refine ⟨f q, ⟨q, hq, hf1 q hq⟩, ?_⟩
      rintro v ⟨q', hq', e⟩
      rw [hf1 q' hq'] at e
      obtain rfl := Option.some.inj e
      exact hmax q' hq'
    obtain ⟨a, ha⟩ := hgr
    obtain ⟨s, hs, e1, e2⟩ := (h3 t a).2 ⟨P, hcell, Or.inl rfl, fun q hq => by
      obtain ⟨a, ha, -⟩ := hPe q hq
      rw [ha]; rfl, hcode, ha⟩
    refine ⟨s, hs, e1, ?_⟩
    rw [e2]
    obtain ⟨q, hq, e⟩ := ha.1
    obtain ⟨b, hb, hpb⟩ := hPe q hq
    rw [hb] at e
    exact Option.some.inj e ▸ hpb
  refine ⟨K, h1, h4, h2, ?_, ?_, ?_, ?_⟩
  · obtain ⟨c1, c2, c3, c4⟩ := C73_count true max rows w hw hne hr K h1
    have hsum : K.length ≤ K.countP (fun s => s.vset.card = 1) + K.countP (fun s => s.vset.card = 2) + K.countP (fun s => s.vset.card = 3) +
        K.countP (fun s => 3 < s.vset.card) := by
      have hpos : ∀ s ∈ K, 1 ≤ #s.vset := fun s hs => card_pos.2 (by
        have := h4.wf.nonempty s hs
        obtain ⟨v, hv⟩ := List.exists_mem_of_ne_nil _ this
        exact ⟨v, by rw [Simplex.vset]; simpa using hv⟩)
      clear c1 c2 c3 c4 key key' h1 h2 h3 h4 h1'
      induction K with
      | nil => simp
      | cons s K ih =>
        have := ih fun s hs => hpos s (List.mem_cons_of_mem _ hs)
        have := hpos s (by simp)
        simp only [List.length_cons, List.countP_cons, decide_eq_true_eq]
        split_ifs <;> omega
    rw [c1, c2, c3, c4] at hsum
    refine hsum.trans ?_
    simp only [if_true]
    have b1 : rows.length * (w - 1) ≤ rows.length * w := Nat.mul_le_mul_left _ (by omega)
    have b2 : (rows.length - 1) * w ≤ rows.length * w := Nat.mul_le_mul_right _ (by omega)
    have b3 : (rows.length - 1) * (w - 1) ≤ rows.length * w := Nat.mul_le_mul (by omega) (by omega)
    omega
  · intro s hs
    obtain ⟨P, -, -, -, -, ⟨q, -, e⟩, -⟩ := (h3 s.vset s.data).1 ⟨s, hs, rfl, rfl⟩
    exact ⟨_, _, e⟩
  · intro x
    ext t
    unfold Spec.sublevel
    rw [mem_sets]
    constructor
    · rintro ⟨s, hs, e⟩
      obtain ⟨hs, hx⟩ := List.mem_filter.1 hs
      exact key t _ ⟨s, hs, e, by simpa using hx⟩ fun a b hab hb => hab.trans hb
    · intro ht
      obtain ⟨s, hs, e, hx⟩ := key' t _ ht
      exact ⟨s, List.mem_filter.2 ⟨hs, by simpa using hx⟩, e⟩
  · ext t
    rw [mem_sets]
    constructor
    · rintro ⟨s, hs, e⟩
      exact key t _ ⟨s, hs, e, trivial⟩ fun _ _ _ _ => trivial
    · intro ht
      obtain ⟨s, hs, e, -⟩ := key' t _ ht
      exact ⟨s, hs, e⟩

/-- Reading an image. -/
theorem read_image (f : α → α → α) {number : List Char → Option α} {text : List Char} {w : ℕ} {rows : List (List α)} (h : IsImage number text w rows) :
    (∀ r ∈ rows, r.length = w) ∧ MatrixReader.read true f number text = (build true f rows.length w rows.flatten).map fun K => (rows.length, w, K) := by
  obtain ⟨hw, hne, lines, b, hl, hrows⟩ := h
  have hr : ∀ r ∈ rows, r.length = w := by
    intro r hr
    obtain ⟨i, hi, rfl⟩ := List.getElem_of_mem hr
    obtain ⟨words, -, e1, e2⟩ := (List.forall₂_iff_get.1 hrows).2 i (by rw [hrows.length_eq]; exact hi) hi
    have := congrArg List.length e2
    simp only [List.length_map] at this
    rw [← e1, this]
    rfl
  refine ⟨hr, ?_⟩
  have hlen := hrows.length_eq
  have hvals : readValues number text = rows.flatten := by
    apply readValues_all
    rw [extract_lines hl]
    clear hr hl hlen hne
    induction hrows with
    | nil => rfl
    | cons h _ ih =>
      obtain ⟨words, h1, -, h2⟩ := h
      rw [List.map_cons, List.flatten_cons, List.map_append, ih, words_extract h1, h2, List.flatten_cons, List.map_append]
  have hhead : ∀ l ∈ lines, (Strings.split Strings.isSpace (Strings.trim l)).length = w := by
    intro l hl'
    obtain ⟨i, hi, rfl⟩ := List.getElem_of_mem hl'
    obtain ⟨words, h1, h2, -⟩ := (List.forall₂_iff_get.1 hrows).2 i hi (by rw [← hlen]; exact hi)
    simp only [List.get_eq_getElem] at h1
    rw [tokens_eq, words_extract h1, if_neg, h2]
    rintro rfl
    simp only [List.length_nil] at h2
    omega
  unfold MatrixReader.read
  rw [getlines_spec text lines b hl]
  obtain ⟨l, ls, rfl⟩ := List.exists_cons_of_ne_nil (show lines ≠ [] by
    rintro rfl
    exact hne (List.length_eq_zero_iff.1 hlen.symm))
  rw [header_start, hhead l List.mem_cons_self, header_eq w hw, if_pos hhead]
  simp only [hvals, zero_add, hlen]

/-! ### Regions -/

theorem eqvGen_le {r s : ℕ → ℕ → Prop} (h : ∀ a b, r a b → Relation.EqvGen s a b) {a b : ℕ} (hab : Relation.EqvGen r a b) : Relation.EqvGen s a b := by
  induction hab with
  | rel a b h' => exact h a b h'
  | refl a => exact .refl a
  | symm a b _ ih => exact .symm _ _ ih
  | trans a b c _ _ ih1 ih2 => exact .trans _ _ _ ih1 ih2

theorem mem_pair {w : ℕ} {rows : List (List α)} (hr : ∀ r ∈ rows, r.length = w) {p : α → Prop} {u v : ℕ} (huv : u < v) :
    {u, v} ∈ imageCells w rows p ↔ PixelWith w rows p u ∧ PixelWith w rows p v ∧ Follows w u v := by
  have hlt : ∀ {u}, PixelWith w rows p u → u < rows.length * w := by
    rintro u ⟨a, ha, -⟩
    obtain ⟨h1, h2⟩ := entry_lt hr ha
    rw [← Nat.div_add_mod u w]
    exact code_lt h1 h2
  classical
  unfold imageCells
  rw [mem_filter, mem_powerset]
  constructor
  · rintro ⟨-, -, h1, h2⟩
    exact ⟨h1 u (by simp), h1 v (by simp), h2 u (by simp) v (by simp) huv.le⟩
  · rintro ⟨h1, h2, h3⟩
    refine ⟨?_, by simp, ?_, ?_⟩
    · intro a ha
      rw [mem_insert, mem_singleton] at ha
      rcases ha with rfl | rfl <;> rw [mem_range] <;> apply hlt <;> assumption
    · intro a ha
      rw [mem_insert, mem_singleton] at ha
      rcases ha with rfl | rfl <;> assumption
    · intro a ha b hb hab
      rw [mem_insert, mem_singleton] at ha hb
      rcases ha with rfl | rfl <;> rcases hb with rfl | rfl
      · unfold Follows; omega
      · exact h3
      · omega
      · unfold Follows; omega

theorem mem_single {w : ℕ} {rows : List (List α)} (hr : ∀ r ∈ rows, r.length = w) {p : α → Prop} {u : ℕ} : {u} ∈ imageCells w rows p ↔ PixelWith w rows p u := by
  classical
  unfold imageCells
  rw [mem_filter, mem_powerset]
  constructor
  · rintro ⟨-, -, h1, -⟩
    exact h1 u (by simp)
  · intro h
    have hlt : u < rows.length * w := by
      obtain ⟨a, ha, -⟩ := h
      obtain ⟨h1, h2⟩ := entry_lt hr ha
      rw [← Nat.div_add_mod u w]
      exact code_lt h1 h2
    refine ⟨by simpa using hlt, by simp, by simpa using h, ?_⟩
    intro a ha b hb hab
    rw [mem_singleton] at ha hb
    subst ha hb
    unfold Follows; omega

theorem follows_le {w u v : ℕ} (h : Follows w u v) : u ≤ v := by
  rw [← Nat.div_add_mod u w, ← Nat.div_add_mod v w]
  exact Nat.add_le_add (Nat.mul_le_mul_left _ h.1) h.2.2.1

theorem connected_iff [LinearOrder α] {w : ℕ} {rows : List (List α)} (hr : ∀ r ∈ rows, r.length = w) {K : Complex α} {y : α}
    (hK : sublevel K y = imageCells w rows (· ≤ y)) (u v : ℕ) : ConnectedUpTo K y u v ↔ SameRegion w rows (· ≤ y) u v := by
  have hmem : ∀ t, (∃ s ∈ K, s.vset = t ∧ s.data ≤ y) ↔ t ∈ imageCells w rows (· ≤ y) := by
    intro t
    rw [← hK, Spec.sublevel, mem_sets]
    constructor
    · rintro ⟨s, hs, e, h⟩
      exact ⟨s, List.mem_filter.2 ⟨hs, by simpa using h⟩, e⟩
    · rintro ⟨s, hs, e⟩
      obtain ⟨h1, h2⟩ := List.mem_filter.1 hs
      exact ⟨s, h1, e, by simpa using h2⟩
  unfold ConnectedUpTo SameRegion
  constructor
  · refine eqvGen_le ?_
    rintro a b ⟨hab, h⟩
    rw [hmem] at h
    rcases lt_or_gt_of_ne hab with g | g
    · exact .rel _ _ ((mem_pair hr g).1 h)
    · rw [pair_comm] at h
      exact .symm _ _ (.rel _ _ ((mem_pair hr g).1 h))
  · refine eqvGen_le ?_
    rintro a b h
    rcases (follows_le h.2.2).eq_or_lt with rfl | g
    · exact .refl _
    · exact .rel _ _ ⟨g.ne, (hmem _).2 ((mem_pair hr g).2 h)⟩

/-- All pixels are connected. -/
theorem all_connected {w : ℕ} (hw : 0 < w) {rows : List (List α)} (hr : ∀ r ∈ rows, r.length = w) {p : α → Prop} (hp : ∀ y x a, entry rows y x = some a → p a) {u : ℕ}
    (hu : u < rows.length * w) : SameRegion w rows p u 0 := by
  have hpix : ∀ u, u < rows.length * w → PixelWith w rows p u := by
    intro u hu
    have h1 : u / w < rows.length := (Nat.div_lt_iff_lt_mul hw).2 hu
    have h2 : u % w < rows[u / w].length := by
      rw [hr _ (List.getElem_mem h1)]
      exact Nat.mod_lt _ hw
    have he : entry rows (u / w) (u % w) = some rows[u / w][u % w] := by
      simp only [entry, List.getElem?_eq_getElem h1, Option.bind_some, List.getElem?_eq_getElem h2]
    exact ⟨_, he, hp _ _ _ he⟩
  induction u using Nat.strong_induction_on with
  | _ u ih =>
    rcases Nat.eq_zero_or_pos u with rfl | hpos
    · exact .refl _
    · by_cases hx : u % w = 0
      · have hy : w ≤ u := by
          by_contra hlt
          rw [Nat.mod_eq_of_lt (by omega)] at hx
          omega
        refine .trans _ _ _ (.symm _ _ (.rel _ _ ⟨hpix (u - w) (by omega), hpix u hu, ?_⟩)) (ih (u - w) (by omega) (by omega))
        have e1 : (u - w) / w + 1 = u / w := (Nat.div_eq_sub_div hw hy).symm
        have e2 : (u - w) % w = u % w := by rw [← Nat.mod_eq_sub_mod hy]
        unfold Follows
        omega
      · refine .trans _ _ _ (.symm _ _ (.rel _ _ ⟨hpix (u - 1) (by omega), hpix u hu, ?_⟩)) (ih (u - 1) (by omega) (by omega))
        have hlt := Nat.mod_lt u hw
        have e : u - 1 = w * (u / w) + (u % w - 1) := by
          have := Nat.div_add_mod u w
          omega
        have e1 : (u - 1) / w = u / w := by
          rw [e]
          exact (code_div (p := (u / w, u % w - 1)) (by simp only; omega)).1
        have e2 : (u - 1) % w = u % w - 1 := by
          rw [e]
          exact (code_div (p := (u / w, u % w - 1)) (by simp only; omega)).2
        unfold Follows
        omega

/-! ### The program -/

/-- What the diagrams of an image are, given by their dimensions and points, for an order in which values appear.  They count the persistent homology classes of the
triangulated image.  There is a diagram for connected components unless the image has a single pixel, and one for cycles if there are at least two rows and two columns.  In
dimension zero, points count the regions of pixels up to `y` that contain a pixel up to `x`, and there is one infinite point, which is
created with the first pixel. -/
structure _root_.Aleph.Spec.IsImageAnalysis [LinearOrder α] (inf : α) (w : ℕ) (rows : List (List α)) (Es : List (ℕ × List (α × α))) : Prop where
  homology : IsLevelAnalysis inf (fun x => imageCells w rows (· ≤ x)) (imageCells w rows fun _ => True) Es
  dimensions : Es.map Prod.fst = (if rows.length = 1 ∧ w = 1 then [] else if rows.length = 1 ∨ w = 1 then [0] else [0, 1])
  values : ∀ E ∈ Es, ∀ p ∈ E.2, (∃ y x, entry rows y x = some p.1) ∧ (p.2 = inf ∨ ∃ y x, entry rows y x = some p.2)
  regions : ∀ E ∈ Es, E.1 = 0 → ∀ x y, x ≤ y →
    IsClassCount {u | PixelWith w rows (· ≤ x) u} (SameRegion w rows (· ≤ y)) (E.2.countP fun p => p.1 ≤ x ∧ (p.2 = inf ∨ y < p.2))
  essential : ∀ E ∈ Es, E.1 = 0 → ∃ m, IsLeast {a | ∃ y x, entry rows y x = some a} m ∧ E.2.filter (fun p => p.2 = inf) = [(m, inf)]

theorem dims_eq {l : List ℕ} (hl : l.Pairwise (· < ·)) {a b : Prop} [Decidable a] [Decidable b] (h : ∀ e, e ∈ l ↔ e = 0 ∧ a ∨ e = 1 ∧ b) (hba : b → a) :
    l = if ¬ a then [] else if ¬ b then [0] else [0, 1] := by
  refine List.Perm.eq_of_pairwise (le := (· ≤ ·)) (fun x y _ _ h1 h2 => le_antisymm h1 h2) (hl.imp le_of_lt) ?_ ?_
  · split_ifs <;> simp
  · refine (List.perm_ext_iff_of_nodup (hl.imp ne_of_lt) (by split_ifs <;> simp)).2 fun e => ?_
    rw [h]
    by_cases ha : a <;> by_cases hb : b <;> simp [ha, hb]
    exact absurd (hba hb) ha

theorem sublevel_run [LinearOrder α] {inf : α} {number : List Char → Option α} {text : List Char} {w : ℕ} {rows : List (List α)} (h : IsImage number text w rows)
    (hinf : ∀ y x, entry rows y x ≠ some inf) (hsize : 6 * (rows.length * w) ≤ idxMax) :
    ∃ Ds, diagrams inf number false (some text) = some Ds ∧ IsImageAnalysis inf w rows (Ds.map fun D => (D.dimension, D.removeDiagonal.points)) := by
  obtain ⟨hr, hread⟩ := read_image max h
  obtain ⟨hw, hne, -⟩ := h
  obtain ⟨K, k1, k2, k3, k4, k5, k6, k7⟩ := cells hw hne hr
  set L := K.sort (asLt (Filtration.data fun a b => decide (a < b))) with hLdef
  obtain ⟨s1, s2, -⟩ := sortData_spec k2.wf
  rw [← hLdef] at s1 s2
  have hL : IsFiltration L := RelevantEdges.sorted_filtration k2.wf k2.closed k3
  have hn : L.length ≤ idxMax := by rw [s1.length_eq]; exact k4.trans hsize
  have hLinf : ∀ s ∈ L, s.data ≠ inf := by
    intro s hs e
    obtain ⟨y, x, e'⟩ := k5 s (s1.mem_iff.1 hs)
    rw [e] at e'
    exact hinf y x e'
  have hsub : ∀ x, sublevel L x = imageCells w rows (· ≤ x) := by
    intro x
    rw [← k6]
    ext t
    unfold Spec.sublevel
    rw [mem_sets, mem_sets]
    simp only [List.mem_filter, s1.mem_iff]
  have hsets : sets L = imageCells w rows fun _ => True := by
    rw [← k7]
    ext t
    rw [mem_sets, mem_sets]
    simp only [s1.mem_iff]
  obtain ⟨p, Ds, p1, p2, p3⟩ := C51_pipeline inf L hL hn false
  have hA := level_analysis hL hn s2 hLinf p1 p2
  rw [hsets, show sublevel L = fun x => imageCells w rows (· ≤ x) from funext hsub] at hA
  have hvals : ∀ E ∈ Ds.map fun D => (D.dimension, D.removeDiagonal.points), ∀ p ∈ E.2,
      (∃ y x, entry rows y x = some p.1) ∧ (p.2 = inf ∨ ∃ y x, entry rows y x = some p.2) := by
    intro E hE q hq
    obtain ⟨D, hmem, rfl⟩ := List.mem_map.1 hE
    obtain ⟨s, hs, e, h2⟩ := diagram_values hL hn s2 p1 p2 hmem (List.mem_filter.1 hq).1
    refine ⟨by rw [e]; exact k5 s (s1.mem_iff.1 hs), h2.imp_right ?_⟩
    rintro ⟨t, ht, e, -⟩
    rw [e]
    exact k5 t (s1.mem_iff.1 ht)
  have hreg : ∀ E ∈ Ds.map fun D => (D.dimension, D.removeDiagonal.points), E.1 = 0 → ∀ x y, x ≤ y →
      IsClassCount {u | PixelWith w rows (· ≤ x) u} (SameRegion w rows (· ≤ y)) (E.2.countP fun p => p.1 ≤ x ∧ (p.2 = inf ∨ y < p.2)) := by
    intro E hE h0 x y hxy
    obtain ⟨D, hmem, rfl⟩ := List.mem_map.1 hE
    simp only at h0 ⊢
    obtain ⟨t, t1, t2⟩ := (diagram_dimensions hL hn p1 p2 0).1 ⟨D, hmem, h0⟩
    obtain ⟨s, hs, e⟩ := mem_sets.1 t1
    have hc := C17_persistent_components inf L hL hn s2 hLinf .twist .vector true false (Or.inr ⟨s, hs, by rw [e]; omega⟩) Ds (p3 _ _ _) x y
    rw [pointsOfDimension_eq p2, ← h0, ← ((p2.2 D).1 hmem).2] at hc
    have e1 : verticesUpTo L x = {u | PixelWith w rows (· ≤ x) u} := by
      ext u
      rw [Set.mem_ofPred_eq, ← mem_single hr, ← hsub, Spec.sublevel, mem_sets]
      constructor
      · rintro ⟨s, hs, e, hx⟩
        exact ⟨s, List.mem_filter.2 ⟨hs, by simpa using hx⟩, e⟩
      · rintro ⟨s, hs, e⟩
        obtain ⟨h1, h2⟩ := List.mem_filter.1 hs
        exact ⟨s, h1, e, by simpa using h2⟩
    have e2 : ConnectedUpTo L y = SameRegion w rows (· ≤ y) := by
      funext u v
      exact propext (connected_iff hr (hsub y) u v)
    rw [e1, e2] at hc
    rw [Diagram.removeDiagonal, List.countP_filter]
    convert hc using 1
    refine List.countP_congr fun q hq => ?_
    simp only [Bool.and_eq_true, decide_eq_true_eq, Bool.not_eq_true', decide_eq_false_iff_not, and_iff_left_iff_imp]
    rintro ⟨h1, h2⟩ he
    obtain ⟨s, hs, e, -⟩ := diagram_values hL hn s2 p1 p2 hmem hq
    rcases h2 with h2 | h2
    · rw [he, h2] at e
      exact hLinf s hs e.symm
    · rw [← he] at h2
      exact absurd (hxy.trans_lt h2) (not_lt.2 h1)
  refine ⟨Ds, ?_, hA, ?_, hvals, hreg, ?_⟩
  · simp only [diagrams, complexOf, Bool.false_eq_true, if_false, hread, k1, Option.map_some]
    exact p3 _ _ _
  · have hcnt := C73_count true max rows w hw hne hr K k1
    simp only at hcnt
    obtain ⟨-, c2, c3, c4⟩ := hcnt
    have hex : ∀ n, (∃ t ∈ imageCells w rows fun _ => True, #t = n) ↔ 0 < K.countP (fun s => s.vset.card = n) := by
      intro n
      rw [List.countP_pos_iff, ← k7]
      constructor
      · rintro ⟨t, ht, e⟩
        obtain ⟨s, hs, rfl⟩ := mem_sets.1 ht
        exact ⟨s, hs, by simpa using e⟩
      · rintro ⟨s, hs, e⟩
        exact ⟨s.vset, mem_sets.2 ⟨s, hs, rfl⟩, by simpa using e⟩
    have hpos := List.length_pos_iff.2 hne
    have hbig : ∀ n, 3 < n → K.countP (fun s => s.vset.card = n) = 0 := by
      intro n hn'
      refine Nat.le_zero.1 (le_trans (List.countP_mono_left fun s _ h => ?_) c4.le)
      simp only [decide_eq_true_eq] at h ⊢
      omega
    have hall : ∀ e, e ∈ (Ds.map fun D => (D.dimension, D.removeDiagonal.points)).map Prod.fst ↔
        e = 0 ∧ (¬ (rows.length = 1 ∧ w = 1)) ∨ e = 1 ∧ ¬ (rows.length = 1 ∨ w = 1) := by
      intro e
      rw [hA.dimensions, hex]
      obtain ⟨a, ha⟩ : ∃ a, rows.length = a + 1 := ⟨rows.length - 1, by omega⟩
      obtain ⟨b, hb⟩ : ∃ b, w = b + 1 := ⟨w - 1, by omega⟩
      rw [ha, hb] at c2 c3
      simp only [Nat.add_sub_cancel, if_true] at c2 c3
      rw [ha, hb]
      rcases e with _ | _ | e
      · rw [c2]
        have m1 : 0 < (a + 1) * b ↔ b ≠ 0 := by rw [Nat.pos_iff_ne_zero]; simp
        have m2 : 0 < a * (b + 1) ↔ a ≠ 0 := by rw [Nat.pos_iff_ne_zero]; simp
        constructor
        · intro hp
          left
          refine ⟨rfl, ?_⟩
          rintro ⟨h1, h2⟩
          obtain rfl : a = 0 := by omega
          obtain rfl : b = 0 := by omega
          simp at hp
        · rintro (⟨-, hp⟩ | ⟨h1, -⟩)
          · rcases Nat.eq_zero_or_pos b with h0 | h0
            · have := m2.2 (by omega)
              omega
            · have := m1.2 (by omega)
              omega
          · omega
      · rw [c3]
        constructor
        · intro hp
          right
          refine ⟨rfl, ?_⟩
          rintro (h1 | h1)
          · obtain rfl : a = 0 := by omega
            simp at hp
          · obtain rfl : b = 0 := by omega
            simp at hp
        · rintro (⟨h1, -⟩ | ⟨-, hp⟩)
          · omega
          · push Not at hp
            have : 0 < a * b := Nat.mul_pos (by omega) (by omega)
            omega
      · rw [hbig _ (by omega)]
        omega
    have := dims_eq hA.ascending hall (by tauto)
    rw [this]
    simp only [not_not]
  · intro E hE h0
    have hfin : ∃ m M, IsLeast {a | ∃ y x, entry rows y x = some a} m ∧ IsGreatest {a | ∃ y x, entry rows y x = some a} M := by
      have hset : {a | ∃ y x, entry rows y x = some a} = {a | a ∈ rows.flatten} := by
        ext a
        simp only [Set.mem_ofPred_eq, List.mem_flatten]
        constructor
        · rintro ⟨y, x, e⟩
          obtain ⟨r, h1, h2⟩ := Option.bind_eq_some_iff.1 e
          exact ⟨r, List.mem_of_getElem? h1, List.mem_of_getElem? h2⟩
        · rintro ⟨r, hr', ha⟩
          obtain ⟨y, hy⟩ := List.getElem?_of_mem hr'
          obtain ⟨x, hx⟩ := List.getElem?_of_mem ha
          exact ⟨y, x, by rw [entry, hy]; exact hx⟩
      have hf : ({a | ∃ y x, entry rows y x = some a} : Set α).Finite := by
        rw [hset]
        exact List.finite_toSet _
      have hn' : ({a | ∃ y x, entry rows y x = some a} : Set α).Nonempty := by
        obtain ⟨r, hr'⟩ := List.exists_mem_of_ne_nil _ hne
        rw [hset]
        have : r ≠ [] := by
          rintro rfl
          have := hr _ hr'
          simp at this
          omega
        obtain ⟨a, ha⟩ := List.exists_mem_of_ne_nil _ this
        exact ⟨a, List.mem_flatten.2 ⟨r, hr', ha⟩⟩
      obtain ⟨m, hm1, hm2⟩ := Set.exists_min_image _ id hf hn'
      obtain ⟨M, hM1, hM2⟩ := Set.exists_max_image _ id hf hn'
      exact ⟨m, M, ⟨hm1, fun a ha => hm2 a ha⟩, hM1, fun a ha => hM2 a ha⟩
    obtain ⟨m, M, hm, hM⟩ := hfin
    have hmM : m ≤ M := hm.2 hM.1
    have hconn : ∀ u v, PixelWith w rows (fun _ => True) u → PixelWith w rows (fun _ => True) v → SameRegion w rows (· ≤ M) u v := by
      have hz : ∀ u, PixelWith w rows (fun _ => True) u → SameRegion w rows (· ≤ M) u 0 := by
        rintro u ⟨a, ha, -⟩
        obtain ⟨h1, h2⟩ := entry_lt hr ha
        refine all_connected hw hr (fun y x a ha => hM.2 ⟨y, x, ha⟩) ?_
        rw [← Nat.div_add_mod u w]
        exact code_lt h1 h2
      intro u v hu hv
      exact .trans _ _ _ (hz u hu) (.symm _ _ (hz v hv))
    have hone : ∀ x, m ≤ x → x ≤ M → E.2.countP (fun p => p.1 ≤ x ∧ (p.2 = inf ∨ M < p.2)) = 1 := by
      intro x hx hxM
      refine FunctionAnalysis.classCount_one ?_ ?_ (hreg E hE h0 x M hxM)
      · rintro u ⟨a, ha, -⟩ v ⟨b, hb, -⟩
        exact hconn u v ⟨a, ha, trivial⟩ ⟨b, hb, trivial⟩
      · obtain ⟨y, z, e⟩ := hm.1
        obtain ⟨-, h2⟩ := entry_lt hr e
        refine ⟨w * y + z, m, ?_, hx⟩
        obtain ⟨e1, e2⟩ := code_div (p := (y, z)) h2
        rw [e1, e2]
        exact e
    have hinfc : ∀ q ∈ E.2, (q.2 = inf ∨ M < q.2) ↔ q.2 = inf := by
      intro q hq
      refine ⟨fun hor => ?_, Or.inl⟩
      rcases hor with e | hlt
      · exact e
      · rcases (hvals E hE q hq).2 with e | ⟨y, x, e⟩
        · exact e
        · exact absurd hlt (not_lt.2 (hM.2 ⟨y, x, e⟩))
    have h1 := hone m le_rfl hmM
    have h2 := hone M hmM le_rfl
    have h1' : E.2.countP (fun p => p.1 ≤ m ∧ p.2 = inf) = 1 := by
      rw [← h1]
      refine List.countP_congr fun q hq => ?_
      simp only [decide_eq_true_eq, hinfc q hq]
    have h2' : E.2.countP (fun p => p.2 = inf) = 1 := by
      rw [← h2]
      refine List.countP_congr fun q hq => ?_
      simp only [decide_eq_true_eq, hinfc q hq]
      refine ⟨fun e => ⟨hM.2 (hvals E hE q hq).1, e⟩, fun h => h.2⟩
    refine ⟨m, hm, ?_⟩
    rw [List.countP_eq_length_filter] at h2'
    obtain ⟨q, hq⟩ := List.length_eq_one_iff.1 h2'
    have hqm : q ∈ E.2.filter fun p => p.2 = inf := by rw [hq]; simp
    obtain ⟨hq1, hq2⟩ := List.mem_filter.1 hqm
    rw [decide_eq_true_eq] at hq2
    obtain ⟨q', hq', hle⟩ := List.countP_pos_iff.1 (show 0 < E.2.countP (fun p => p.1 ≤ m ∧ p.2 = inf) by omega)
    rw [decide_eq_true_eq] at hle
    have : q' ∈ E.2.filter fun p => p.2 = inf := List.mem_filter.2 ⟨hq', by simpa using hle.2⟩
    rw [hq, List.mem_singleton] at this
    subst this
    rw [hq]
    congr 1
    exact Prod.ext (le_antisymm hle.1 (hm.2 (hvals E hE _ hq').1)) hq2

theorem diagrams_dual [LinearOrder α] (inf : α) (number : List Char → Option α) (text : Option (List Char)) :
    diagrams inf number true text = diagrams (α := αᵒᵈ) inf number false text := rfl

/-- C166. The program writes the persistence diagrams of the image, for superlevel sets if this is the last option about levels, each of them as one line for each point,
followed by an empty line. -/
theorem _root_.Aleph.C166_output [LinearOrder α] (inf : α) (number : List Char → Option α) (print : α → List Char) (files : List Char → Option (List Char)) (opts : List Opt)
    (filename : List Char) (rest : List (List Char)) (text : List Char) (w : ℕ) (rows : List (List α)) (hf : files filename = some text) (h : IsImage number text w rows)
    (hinf : ∀ y x, entry rows y x ≠ some inf) (hsize : 6 * (rows.length * w) ≤ idxMax) :
    ∃ Es : List (ℕ × List (α × α)), main inf number print files opts (filename :: rest) =
        some (0, Es.flatMap fun E => (E.2.flatMap fun p => print p.1 ++ '\t' :: print p.2 ++ ['\n']) ++ ['\n']) ∧
      (settings opts = false → IsImageAnalysis inf w rows Es) ∧ (settings opts = true → IsImageAnalysis (α := αᵒᵈ) inf w rows Es) := by
  have hmain : ∀ Ds, diagrams inf number (settings opts) (some text) = some Ds → main inf number print files opts (filename :: rest) =
        some (0, (Ds.map fun D => (D.dimension, D.removeDiagonal.points)).flatMap fun E => (E.2.flatMap fun p => print p.1 ++ '\t' :: print p.2 ++ ['\n']) ++ ['\n']) := by
    intro Ds hD
    have hb : diagramBlock print = fun D : Diagram α => (D.removeDiagonal.points.flatMap fun p => print p.1 ++ '\t' :: print p.2 ++ ['\n']) ++ ['\n'] := by
      funext D
      simp [diagramBlock, FunctionAnalysis.diagramText]
    simp only [main, hf, hD, List.flatMap_map, hb]
  cases hs : settings opts with
  | false =>
    obtain ⟨Ds, h1, h2⟩ := sublevel_run h hinf hsize
    exact ⟨_, hmain Ds (by rw [hs]; exact h1), fun _ => h2, (by intro h; cases h)⟩
  | true =>
    obtain ⟨Ds, h1, h2⟩ : ∃ Ds : List (Diagram α), diagrams inf number true (some text) = some Ds ∧
        IsImageAnalysis (α := αᵒᵈ) inf w rows (Ds.map fun D : Diagram α => (D.dimension, D.removeDiagonal.points)) :=
      sublevel_run (α := αᵒᵈ) (inf := inf) (number := number) h hinf hsize
    exact ⟨Ds.map fun D => (D.dimension, D.removeDiagonal.points), hmain Ds (by rw [hs]; exact h1), (by intro h; cases h), fun _ => h2⟩

/-- C166. The last option about levels counts; by default, sublevel sets are used. -/
theorem _root_.Aleph.C166_options (opts : List Opt) :
    settings opts = true ↔ ∃ before after, opts = before ++ Opt.superlevel :: after ∧ Opt.sublevel ∉ after := by
  unfold settings
  induction opts using List.reverseRecOn with
  | nil => simp
  | append_singleton l o ih =>
    rw [List.foldl_append, List.foldl_cons, List.foldl_nil]
    cases o with
    | sublevel =>
      simp only [setOption, Bool.false_eq_true, false_iff]
      rintro ⟨before, after, e, h⟩
      rcases List.eq_nil_or_concat after with rfl | ⟨after, b, rfl⟩
      · have := congrArg List.getLast? e
        simp at this
      · have := congrArg List.getLast? e
        simp only [List.concat_eq_append, List.getLast?_append, List.getLast?_cons] at this
        simp at this
        subst this
        simp at h
    | superlevel =>
      simp only [setOption, true_iff]
      exact ⟨l, [], rfl, by simp⟩
    | unknown =>
      simp only [setOption]
      rw [ih]
      constructor
      · rintro ⟨before, after, rfl, h⟩
        exact ⟨before, after ++ [.unknown], by simp, by simpa using h⟩
      · rintro ⟨before, after, e, h⟩
        rcases List.eq_nil_or_concat after with rfl | ⟨after, b, rfl⟩
        · have := congrArg List.getLast? e
          simp at this
        · rw [List.concat_eq_append, ← List.cons_append, ← List.append_assoc] at e
          obtain ⟨e1, e2⟩ := List.append_inj' e rfl
          refine ⟨before, after, e1, fun hm => h ?_⟩
          simp [hm]

/-- C166. Without an argument, the program does nothing but report failure; a file that cannot be opened or has lines with different numbers of words ends it with an
exception. -/
theorem _root_.Aleph.C166_errors [LinearOrder α] (inf : α) (number : List Char → Option α) (print : α → List Char) (files : List Char → Option (List Char)) (opts : List Opt)
    (filename : List Char) (rest : List (List Char)) :
    main inf number print files opts [] = some (-1, []) ∧
    (files filename = none → main inf number print files opts (filename :: rest) = none) ∧
    (∀ text ls b ws, files filename = some text → Lines text ls b → List.Forall₂ Words ls ws →
      (∃ r ∈ ws, ∃ r' ∈ ws, r ≠ [] ∧ r' ≠ [] ∧ r.length ≠ r'.length) → main inf number print files opts (filename :: rest) = none) := by
  refine ⟨rfl, fun h => ?_, fun text ls b ws h hl hw hne => ?_⟩
  · simp only [main, h, diagrams, complexOf]
  · have := (C74_read_partial true (if settings opts = true then min else max) number text ls b hl ws hw).2 hne
    simp only [main, h, diagrams, complexOf, this]

/-- C166. An image with a single pixel has no diagrams, not even one with the point for its only region. -/
theorem _root_.Aleph.C166_single_pixel [LinearOrder α] (inf : α) (number : List Char → Option α) (print : α → List Char) (files : List Char → Option (List Char)) (opts : List Opt)
    (filename : List Char) (rest : List (List Char)) (text : List Char) (a : α) (hf : files filename = some text) (h : IsImage number text 1 [[a]]) (ha : a ≠ inf) :
    main inf number print files opts (filename :: rest) = some (0, []) := by
  obtain ⟨Es, h1, h2, h3⟩ := C166_output inf number print files opts filename rest text 1 [[a]] hf h (by
    intro y x e
    obtain ⟨h1, h2⟩ := entry_lt (w := 1) (by simp) e
    have hy : y = 0 := by simp at h1; omega
    have hx : x = 0 := by omega
    subst hy hx
    exact ha (by simpa [entry] using e)) (by simp [idxMax])
  have hE : Es = [] := by
    have : Es.map Prod.fst = [] := by
      cases hs : settings opts with
      | false => exact (h2 hs).dimensions
      | true => exact (h3 hs).dimensions
    exact List.map_eq_nil_iff.1 this
  rw [h1, hE]
  rfl

/-- Digits as numbers. -/
def digit (w : List Char) : Option ℕ :=
  match w with
  | [c] => if c.isDigit then some (c.toNat - '0'.toNat) else none
  | _ => none

/-- A dark image with a bright spot, whose two dark regions meet at 5; the cycle around the spot is closed by 5 and filled by 9. -/
def sampleImage : List Char := "1 1 1\n5 9 5\n0 0 0\n".toList

example : main 99 digit (fun n => if n = 99 then "inf".toList else [Char.ofNat (n + 48)]) (fun _ => some sampleImage) [] [['x']] =
    some (0, "0\tinf\n1\t5\n\n5\t9\n\n".toList) := by decide +kernel

example : IsImage digit sampleImage 3 [[1, 1, 1], [5, 9, 5], [0, 0, 0]] := by
  refine ⟨by decide, by decide, ["1 1 1".toList, "5 9 5".toList, "0 0 0".toList], false, ?_, ?_⟩
  · exact .cons "1 1 1".toList _ _ _ (by decide) (.cons "5 9 5".toList _ _ _ (by decide) (.cons "0 0 0".toList _ _ _ (by decide) .nil))
  · have hw : ∀ a b c : Char, a ∉ whitespace → b ∉ whitespace → c ∉ whitespace → Words [a, ' ', b, ' ', c] [[a], [b], [c]] := fun a b c ha hb hc =>
      .cons [] [a] ' ' _ _ (by simp) (by simp) (by simpa using ha) (by decide)
        (.cons [] [b] ' ' _ _ (by simp) (by simp) (by simpa using hb) (by decide) (.last [] [c] (by simp) (by simp) (by simpa using hc)))
    refine .cons ⟨_, hw '1' '1' '1' (by decide) (by decide) (by decide), rfl, by decide⟩ (.cons ⟨_, hw '5' '9' '5' (by decide) (by decide) (by decide), rfl, by decide⟩
      (.cons ⟨_, hw '0' '0' '0' (by decide) (by decide) (by decide), rfl, by decide⟩ .nil))

end Aleph.ImageAnalysis
