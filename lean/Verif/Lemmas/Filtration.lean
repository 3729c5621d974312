import Verif.Lemmas.Complex
import Mathlib.Data.List.GetD
import Mathlib.Tactic.Order

namespace Aleph

open Finset Spec Complex

/-! ### Sorting with an order that is only total on the given elements -/

section Sorting

variable {β : Type} {r : β → β → Prop} [DecidableRel r]

theorem pairwise_orderedInsert_on {S : β → Prop} (htrans : ∀ x y z, S x → S y → S z → r x y → r y z → r x z)
    (htot : ∀ x y, S x → S y → r x y ∨ r y x) {a : β} {l : List β} (ha : S a)
    (hl : ∀ x ∈ l, S x) (hp : l.Pairwise r) : (l.orderedInsert r a).Pairwise r := by
  induction l with
  | nil => simp
  | cons b l ih =>
    obtain ⟨h1, h2⟩ := List.pairwise_cons.1 hp
    have hb := hl b (by simp)
    rw [List.orderedInsert]
    split
    · next hab =>
      refine List.pairwise_cons.2 ⟨?_, hp⟩
      intro x hx
      rcases List.mem_cons.1 hx with rfl | hx
      · exact hab
      · exact htrans a b x ha hb (hl x (List.mem_cons_of_mem _ hx)) hab (h1 x hx)
    · next hab =>
      refine List.pairwise_cons.2 ⟨?_, ih (fun x hx => hl x (List.mem_cons_of_mem _ hx)) h2⟩
      intro x hx
      rw [List.mem_orderedInsert] at hx
      rcases hx with rfl | hx
      · exact (htot x b ha hb).resolve_left hab
      · exact h1 x hx

theorem pairwise_insertionSort_on {S : β → Prop}
    (htrans : ∀ x y z, S x → S y → S z → r x y → r y z → r x z)
    (htot : ∀ x y, S x → S y → r x y ∨ r y x) {l : List β} (hl : ∀ x ∈ l, S x) :
    (l.insertionSort r).Pairwise r := by
  induction l with
  | nil => simp
  | cons a l ih =>
    rw [List.insertionSort_cons]
    refine pairwise_orderedInsert_on htrans htot (hl a (by simp)) ?_
      (ih fun x hx => hl x (List.mem_cons_of_mem _ hx))
    intro x hx
    rw [List.mem_insertionSort] at hx
    exact hl x (List.mem_cons_of_mem _ hx)

end Sorting

variable {α : Type}

theorem Spec.StrictTotalOn.asymm {S : Simplex α → Prop} {cmp : Simplex α → Simplex α → Option Bool}
    (h : StrictTotalOn S cmp) {s t : Simplex α} (hs : S s) (ht : S t) (h1 : cmp s t = some true) :
    cmp t s ≠ some true := fun h2 => h.irrefl s hs (h.trans s t s hs ht hs h1 h2)

theorem asLt_iff {cmp : Simplex α → Simplex α → Option Bool} {s t : Simplex α} :
    asLt cmp s t = true ↔ cmp s t = some true := by
  unfold asLt
  cases h : cmp s t with
  | none => simp
  | some b => simp

theorem asLt_false {cmp : Simplex α → Simplex α → Option Bool} {s t : Simplex α} :
    asLt cmp s t = false ↔ cmp s t ≠ some true := by
  rw [ne_eq, ← asLt_iff, Bool.not_eq_true]

theorem sort_perm (K : Complex α) (lt : Simplex α → Simplex α → Bool) : (K.sort lt).Perm K :=
  List.perm_insertionSort _ _

theorem sort_pairwise {K : Complex α} (hK : WF K) {S : Simplex α → Prop}
    {cmp : Simplex α → Simplex α → Option Bool} (h : StrictTotalOn S cmp) (hS : ∀ s ∈ K, S s) :
    (K.sort (asLt cmp)).Pairwise fun s t => cmp s t = some true := by
  have h1 : (K.sort (asLt cmp)).Pairwise fun s t => asLt cmp t s = false := by
    unfold Complex.sort
    refine pairwise_insertionSort_on (S := (· ∈ K)) ?_ ?_ (fun x hx => hx)
    · intro x y z hx hy hz h1 h2
      rw [asLt_false] at h1 h2 ⊢
      intro h3
      by_cases e : x = y
      · subst e; exact h2 h3
      by_cases e' : y = z
      · subst e'; exact h1 h3
      have hxy : cmp x y = some true :=
        (h.total x y (hS x hx) (hS y hy) fun e2 => e (hK.eq_of_vset hx hy e2)).resolve_right h1
      have hyz : cmp y z = some true :=
        (h.total y z (hS y hy) (hS z hz) fun e2 => e' (hK.eq_of_vset hy hz e2)).resolve_right h2
      exact h.irrefl x (hS x hx) (h.trans x z x (hS x hx) (hS z hz) (hS x hx)
        (h.trans x y z (hS x hx) (hS y hy) (hS z hz) hxy hyz) h3)
    · intro x y hx hy
      rw [asLt_false, asLt_false]
      by_contra hc
      push Not at hc
      exact h.asymm (hS x hx) (hS y hy) hc.2 hc.1
  have hwf : WF (K.sort (asLt cmp)) := hK.perm (sort_perm _ _)
  have h2 : (K.sort (asLt cmp)).Pairwise fun s t => s ≠ t := hwf.nodup
  have h3 := List.Pairwise.and h1 h2
  refine h3.imp_of_mem ?_
  intro s t hs ht hst
  have hs' := (sort_perm K (asLt cmp)).subset hs
  have ht' := (sort_perm K (asLt cmp)).subset ht
  exact (h.total s t (hS s hs') (hS t ht') fun e => hst.2 (hK.eq_of_vset hs' ht' e)).resolve_right
    (asLt_false.1 hst.1)

theorem sort_unique {K : Complex α} (hK : WF K) {S : Simplex α → Prop}
    {cmp : Simplex α → Simplex α → Option Bool} (h : StrictTotalOn S cmp) (hS : ∀ s ∈ K, S s)
    {L : Complex α} (hp : L.Perm K) (hL : L.Pairwise fun s t => cmp t s ≠ some true) :
    L = K.sort (asLt cmp) := by
  have hperm : L.Perm (K.sort (asLt cmp)) := hp.trans (sort_perm _ _).symm
  have h2 : (K.sort (asLt cmp)).Pairwise fun s t => cmp t s ≠ some true := by
    refine (sort_pairwise hK h hS).imp_of_mem ?_
    intro s t hs ht hst
    exact h.asymm (hS s ((sort_perm _ _).subset hs)) (hS t ((sort_perm _ _).subset ht)) hst
  refine hperm.eq_of_pairwise ?_ hL h2
  intro a b ha hb h1 h2
  have ha' := hp.subset ha
  have hb' := (sort_perm _ _).subset hb
  by_contra hne
  rcases h.total a b (hS a ha') (hS b hb') (fun e => hne (hK.eq_of_vset ha' hb' e)) with h3 | h3
  · exact h2 h3
  · exact h1 h3

theorem sort_facesFirst {K : Complex α} (hK : WF K) {S : Simplex α → Prop}
    {cmp : Simplex α → Simplex α → Option Bool} (h : StrictTotalOn S cmp) (hS : ∀ s ∈ K, S s)
    (hf : ∀ s ∈ K, ∀ t ∈ K, s.vset ⊂ t.vset → cmp s t = some true) :
    FacesFirst (K.sort (asLt cmp)) := by
  refine (sort_pairwise hK h hS).imp_of_mem ?_
  intro s t hs ht hst hss
  have hs' := (sort_perm _ _).subset hs
  have ht' := (sort_perm _ _).subset ht
  exact h.asymm (hS s hs') (hS t ht') hst (hf t ht' s hs' hss)

/-! ### The comparators -/

/-- Normal form and at least one vertex. -/
def Proper (s : Simplex α) : Prop := Normal s.vertices ∧ s.vertices ≠ []

theorem Proper.dimension {s : Simplex α} (h : Proper s) :
    s.dimension = some (s.vset.card - 1) := by
  unfold Simplex.dimension
  have : s.vertices.isEmpty = false := by
    rw [List.isEmpty_eq_false_iff]; exact h.2
  rw [this, h.1.length_eq]; rfl

theorem Proper.card_pos {s : Simplex α} (h : Proper s) : 0 < s.vset.card := by
  have := h.1.length_eq
  have h2 := List.length_pos_of_ne_nil h.2
  unfold Simplex.vset; omega

theorem lt_iff {s t : Simplex α} : s.lt t = Simplex.lexLt s.vertices t.vertices := rfl

section
variable [LinearOrder α]

theorem data_eq {lt : α → α → Bool} {s t : Simplex α} (hs : Proper s) (ht : Proper t) :
    Filtration.data lt s t =
      some (if s.data = t.data then
        (if s.vset.card = t.vset.card then s.lt t else decide (s.vset.card < t.vset.card))
      else lt s.data t.data) := by
  unfold Filtration.data
  rw [hs.dimension, ht.dimension]
  have h1 := hs.card_pos
  have h2 := ht.card_pos
  by_cases hd : s.data = t.data
  · simp only [hd, if_true]
    by_cases hc : s.vset.card = t.vset.card
    · simp [hc]
    · have : ¬ (s.vset.card - 1 = t.vset.card - 1) := by omega
      simp only [this, hc, if_false, Option.some.injEq, decide_eq_decide]
      omega
  · simp [hd]

theorem data_strictTotal {lt : α → α → Bool} (hirr : ∀ a, lt a a = false)
    (htr : ∀ a b c, lt a b = true → lt b c = true → lt a c = true)
    (htot : ∀ a b, a ≠ b → lt a b = true ∨ lt b a = true) :
    StrictTotalOn Proper (Filtration.data lt) := by
  refine ⟨?_, ?_, ?_, ?_⟩
  · intro s t hs ht; rw [data_eq hs ht]; rfl
  · intro s hs
    rw [data_eq hs hs]
    simp [lt_iff, lexLt_irrefl]
  · intro s t u hs ht hu h1 h2
    rw [data_eq hs ht] at h1
    rw [data_eq ht hu] at h2
    rw [data_eq hs hu]
    simp only [Option.some.injEq] at h1 h2 ⊢
    by_cases d1 : s.data = t.data
    · rw [if_pos d1] at h1
      by_cases d2 : t.data = u.data
      · rw [if_pos d2] at h2
        rw [if_pos (d1.trans d2)]
        split_ifs at h1 h2 ⊢ with c1 c2 c3 c4 c5
        all_goals first
          | exact lexLt_trans h1 h2
          | (simp only [decide_eq_true_eq] at *; omega)
      · rw [if_neg d2] at h2
        rw [if_neg (d1 ▸ d2), d1]; exact h2
    · rw [if_neg d1] at h1
      by_cases d2 : t.data = u.data
      · rw [if_neg (d2 ▸ d1), ← d2]; exact h1
      · rw [if_neg d2] at h2
        have h3 := htr _ _ _ h1 h2
        rw [if_neg (fun e => by rw [e, hirr] at h3; exact absurd h3 (by simp))]
        exact h3
  · intro s t hs ht hne
    rw [data_eq hs ht, data_eq ht hs]
    simp only [Option.some.injEq]
    by_cases d1 : s.data = t.data
    · rw [if_pos d1, if_pos d1.symm]
      by_cases c : s.vset.card = t.vset.card
      · rw [if_pos c, if_pos c.symm]
        exact lexLt_total fun e => hne (by unfold Simplex.vset; rw [e])
      · rw [if_neg c, if_neg (fun e => c e.symm)]
        simp only [decide_eq_true_eq]; omega
    · rw [if_neg d1, if_neg (fun e => d1 e.symm)]
      exact htot _ _ d1

theorem data_face {lt : α → α → Bool} {s t : Simplex α} (hs : Proper s) (ht : Proper t)
    (h : s.vset ⊂ t.vset) (hm : s.data = t.data ∨ lt s.data t.data = true) :
    Filtration.data lt s t = some true := by
  rw [data_eq hs ht]
  have := Finset.card_lt_card h
  by_cases d : s.data = t.data
  · rw [if_pos d, if_neg (by omega)]; simp [this]
  · rw [if_neg d, hm.resolve_left d]

/-! Star filtrations: both are instances of a comparison by a value and then
lexicographically. -/

omit [LinearOrder α] in
theorem byValue_strictTotal {β : Type} [LinearOrder β] {S : Simplex α → Prop}
    (val : Simplex α → β) {cmp : Simplex α → Simplex α → Option Bool}
    (hc : ∀ s t, S s → S t → cmp s t =
      if val s < val t then some true else if val s = val t then some (s.lt t) else some false) :
    StrictTotalOn S cmp := by
  refine ⟨?_, ?_, ?_, ?_⟩
  · intro s t hs ht; rw [hc s t hs ht]; split_ifs <;> rfl
  · intro s hs; rw [hc s s hs hs]; simp [lt_iff, lexLt_irrefl]
  · intro s t u hs ht hu h1 h2
    have key : ∀ x y, S x → S y →
        (cmp x y = some true ↔ val x < val y ∨ (val x = val y ∧ x.lt y = true)) := by
      intro x y hx hy
      rw [hc x y hx hy]
      by_cases a1 : val x < val y
      · simp [a1]
      · by_cases a2 : val x = val y
        · simp [a2]
        · simp [a1, a2]
    rw [key s t hs ht] at h1
    rw [key t u ht hu] at h2
    rw [key s u hs hu]
    rcases h1 with h1 | ⟨h1, h3⟩ <;> rcases h2 with h2 | ⟨h2, h4⟩
    · left; exact h1.trans h2
    · left; rw [← h2]; exact h1
    · left; rw [h1]; exact h2
    · right; exact ⟨h1.trans h2, lexLt_trans h3 h4⟩
  · intro s t hs ht hne
    rw [hc s t hs ht, hc t s ht hs]
    rcases lt_trichotomy (val s) (val t) with h | h | h
    · left; rw [if_pos h]
    · simp only [h, lt_irrefl, if_false, if_true, Option.some.injEq]
      exact lexLt_total fun e => hne (by unfold Simplex.vset; rw [e])
    · right; rw [if_pos h]

omit [LinearOrder α] in
theorem byValue_face {β : Type} [LinearOrder β] {S : Simplex α → Prop} (hS : ∀ s, S s → Proper s)
    (val : Simplex α → β) {cmp : Simplex α → Simplex α → Option Bool}
    (hc : ∀ s t, S s → S t → cmp s t =
      if val s < val t then some true else if val s = val t then some (s.lt t) else some false)
    {s t : Simplex α} (hs : S s) (ht : S t) (h : s.vset ⊂ t.vset) (hm : val s ≤ val t) :
    cmp s t = some true := by
  rw [hc s t hs ht]
  rcases hm.lt_or_eq with h1 | h1
  · rw [if_pos h1]
  · rw [if_neg (by rw [h1]; exact lt_irrefl _), if_pos h1, lt_iff,
      lexLt_of_ssubset (hS s hs).1 (hS t ht).1 h]

/-- All vertices have a value. -/
def InRange (values : List α) (s : Simplex α) : Prop :=
  Proper s ∧ ∀ v ∈ s.vertices, v < values.length

omit [LinearOrder α] in
theorem foldlM_max (op : α → α → α) (values : List α) (l : List ℕ)
    (h : ∀ v ∈ l, v < values.length) (m : α) :
    l.foldlM (fun m v => (values[v]?).map (op m)) m =
      some (l.foldl (fun m v => op m (values.getD v m)) m) := by
  induction l generalizing m with
  | nil => rfl
  | cons v l ih =>
    have hv := h v (by simp)
    rw [List.foldlM_cons, List.foldl_cons, List.getElem?_eq_getElem hv, List.getD_eq_getElem _ _ hv]
    exact ih (fun w hw => h w (List.mem_cons_of_mem _ hw)) _

theorem foldl_max_le_iff (values : List α) (l : List ℕ) (h : ∀ v ∈ l, v < values.length) (m b : α) :
    l.foldl (fun m v => max m (values.getD v m)) m ≤ b ↔
      m ≤ b ∧ ∀ v ∈ l, ∀ x, values[v]? = some x → x ≤ b := by
  induction l generalizing m with
  | nil => simp
  | cons v l ih =>
    have hv := h v (by simp)
    rw [List.foldl_cons, ih (fun w hw => h w (List.mem_cons_of_mem _ hw)),
      List.getD_eq_getElem _ _ hv, max_le_iff]
    constructor
    · rintro ⟨⟨h1, h2⟩, h3⟩
      refine ⟨h1, fun w hw x hx => ?_⟩
      rcases List.mem_cons.1 hw with rfl | hw
      · rw [List.getElem?_eq_getElem hv] at hx; cases hx; exact h2
      · exact h3 w hw x hx
    · rintro ⟨h1, h2⟩
      exact ⟨⟨h1, h2 v (by simp) _ (List.getElem?_eq_getElem hv)⟩,
        fun w hw => h2 w (List.mem_cons_of_mem _ hw)⟩

theorem le_foldl_min_iff (values : List α) (l : List ℕ) (h : ∀ v ∈ l, v < values.length) (m b : α) :
    b ≤ l.foldl (fun m v => min m (values.getD v m)) m ↔
      b ≤ m ∧ ∀ v ∈ l, ∀ x, values[v]? = some x → b ≤ x := by
  induction l generalizing m with
  | nil => simp
  | cons v l ih =>
    have hv := h v (by simp)
    rw [List.foldl_cons, ih (fun w hw => h w (List.mem_cons_of_mem _ hw)),
      List.getD_eq_getElem _ _ hv, le_min_iff]
    constructor
    · rintro ⟨⟨h1, h2⟩, h3⟩
      refine ⟨h1, fun w hw x hx => ?_⟩
      rcases List.mem_cons.1 hw with rfl | hw
      · rw [List.getElem?_eq_getElem hv] at hx; cases hx; exact h2
      · exact h3 w hw x hx
    · rintro ⟨h1, h2⟩
      exact ⟨⟨h1, h2 v (by simp) _ (List.getElem?_eq_getElem hv)⟩,
        fun w hw => h2 w (List.mem_cons_of_mem _ hw)⟩

/-- The value used by the lower-star filtration. -/
def maxVal (lo : α) (values : List α) (s : Simplex α) : α :=
  s.vertices.foldl (fun m v => max m (values.getD v m)) lo

/-- The value used by the upper-star filtration. -/
def minVal (hi : α) (values : List α) (s : Simplex α) : α :=
  s.vertices.foldl (fun m v => min m (values.getD v m)) hi

theorem maxVal_mono {lo : α} {values : List α} {s t : Simplex α} (hs : InRange values s)
    (ht : InRange values t) (h : s.vset ⊆ t.vset) : maxVal lo values s ≤ maxVal lo values t := by
  have h1 := (foldl_max_le_iff values t.vertices ht.2 lo (maxVal lo values t)).1 le_rfl
  refine (foldl_max_le_iff values s.vertices hs.2 lo _).2 ⟨h1.1, fun v hv x hx => h1.2 v ?_ x hx⟩
  exact List.mem_toFinset.1 (h (List.mem_toFinset.2 hv))

theorem minVal_anti {hi : α} {values : List α} {s t : Simplex α} (hs : InRange values s)
    (ht : InRange values t) (h : s.vset ⊆ t.vset) : minVal hi values t ≤ minVal hi values s := by
  have h1 := (le_foldl_min_iff values t.vertices ht.2 hi (minVal hi values t)).1 le_rfl
  refine (le_foldl_min_iff values s.vertices hs.2 hi _).2 ⟨h1.1, fun v hv x hx => h1.2 v ?_ x hx⟩
  exact List.mem_toFinset.1 (h (List.mem_toFinset.2 hv))

theorem lowerStar_eq (lo : α) (values : List α) (s t : Simplex α) (hs : InRange values s)
    (ht : InRange values t) :
    Filtration.lowerStar lo values s t =
      if maxVal lo values s < maxVal lo values t then some true
      else if maxVal lo values s = maxVal lo values t then some (s.lt t) else some false := by
  unfold Filtration.lowerStar Filtration.maximumValue
  rw [foldlM_max max values _ hs.2, foldlM_max max values _ ht.2]
  rfl

theorem upperStar_eq (hi : α) (values : List α) (s t : Simplex α) (hs : InRange values s)
    (ht : InRange values t) :
    Filtration.upperStar hi values s t =
      if OrderDual.toDual (minVal hi values s) < OrderDual.toDual (minVal hi values t) then some true
      else if OrderDual.toDual (minVal hi values s) = OrderDual.toDual (minVal hi values t)
        then some (s.lt t) else some false := by
  unfold Filtration.upperStar Filtration.minimumValue
  rw [foldlM_max min values _ hs.2, foldlM_max min values _ ht.2]
  rfl

end

end Aleph
