import Verif.Model.Munkres
import Mathlib.Algebra.Order.Archimedean.Basic
import Mathlib.Data.Finset.Card
import Mathlib.Data.Finset.Prod
import Mathlib.Algebra.BigOperators.Group.Finset.Piecewise
import Mathlib.Algebra.BigOperators.Group.Finset.Sigma
import Mathlib.Algebra.Order.BigOperators.Group.Finset
import Mathlib.Tactic.Tauto
import Mathlib.Tactic.Abel
import Mathlib.Tactic.Order

/-!
# Invariants of the assignment solver
-/

namespace Aleph.Munkres

variable {T : Type}

@[simp] theorem set_same {β : Type} (f : ℕ → ℕ → β) (r c : ℕ) (x : β) : set f r c x r c = x := by simp [set]

theorem set_ne {β : Type} {f : ℕ → ℕ → β} {r c : ℕ} {x : β} {i j : ℕ} (h : (i, j) ≠ (r, c)) :
    set f r c x i j = f i j := by
  unfold set
  rw [if_neg]
  rintro ⟨rfl, rfl⟩
  exact h rfl

theorem set_eq_true {f : ℕ → ℕ → Bool} {r c i j : ℕ} :
    set f r c true i j = true ↔ (i, j) = (r, c) ∨ f i j = true := by
  unfold set
  split
  · next h => simp [h]
  · next h => simp only [Prod.mk.injEq]; tauto

/-- The stars form a partial matching on the entries below `n`. -/
structure Matching (n : ℕ) (stars : ℕ → ℕ → Bool) : Prop where
  lt : ∀ r c, stars r c = true → r < n ∧ c < n
  row : ∀ r c c', stars r c = true → stars r c' = true → c = c'
  col : ∀ r r' c, stars r c = true → stars r' c = true → r = r'

/-- The first star of each row or column is the only one. -/
theorem any_range {n : ℕ} {p : ℕ → Bool} (h : ∀ i, p i = true → i < n) :
    (List.range n).any p = true ↔ ∃ i, p i = true := by
  rw [List.any_eq_true]
  constructor
  · rintro ⟨i, -, hi⟩; exact ⟨i, hi⟩
  · rintro ⟨i, hi⟩; exact ⟨i, List.mem_range.2 (h i hi), hi⟩

/-! ### The reduced matrix -/

/-- The matrix arises from the costs by subtracting potentials, and it is non-negative. -/
def Reduced [AddCommGroup T] [LinearOrder T] (n : ℕ) (costs m : ℕ → ℕ → T) : Prop :=
  (∃ u v : ℕ → T, ∀ r < n, ∀ c < n, m r c = costs r c - u r - v c) ∧ ∀ r < n, ∀ c < n, 0 ≤ m r c

theorem foldl_min_le [LinearOrder T] (f : ℕ → T) (l : List ℕ) (x : T) :
    l.foldl (fun m i => min m (f i)) x ≤ x ∧ ∀ i ∈ l, l.foldl (fun m i => min m (f i)) x ≤ f i := by
  induction l generalizing x with
  | nil => simp
  | cons a l ih =>
    rw [List.foldl_cons]
    obtain ⟨h1, h2⟩ := ih (min x (f a))
    refine ⟨h1.trans (min_le_left _ _), ?_⟩
    intro i hi
    rcases List.mem_cons.1 hi with rfl | hi
    · exact h1.trans (min_le_right _ _)
    · exact h2 i hi

theorem reduced_subtractRowMinimum [AddCommGroup T] [LinearOrder T] [IsOrderedAddMonoid T] (n : ℕ)
    (costs : ℕ → ℕ → T) : Reduced n costs (subtractRowMinimum n costs) := by
  refine ⟨⟨rowMinimum n costs, fun _ => 0, fun r _ c _ => by simp [subtractRowMinimum]⟩, ?_⟩
  intro r _ c hc
  unfold subtractRowMinimum rowMinimum
  exact sub_nonneg.2 ((foldl_min_le (costs r) _ _).2 c (List.mem_range.2 hc))

/-! ### The invariants -/

/-- Stars are zeros and form a partial matching. -/
structure Base [AddCommGroup T] [LinearOrder T] (n : ℕ) (costs : ℕ → ℕ → T) (S : State T) : Prop where
  reduced : Reduced n costs S.matrix
  stars : Matching n S.stars
  zero : ∀ r c, S.stars r c = true → S.matrix r c = 0

/-- Before step 2: nothing is covered, and there are no primes. -/
structure Clean [AddCommGroup T] [LinearOrder T] (n : ℕ) (costs : ℕ → ℕ → T) (S : State T) : Prop extends
    Base n costs S where
  primes : ∀ r c, S.primes r c = false
  rowMask : ∀ r, S.rowMask r = false
  colMask : ∀ c, S.colMask c = false

/-- The star in the column of a prime is in the row of an earlier prime. -/
def Chain (stars : ℕ → ℕ → Bool) : List (ℕ × ℕ) → Prop
  | [] => True
  | p :: P => (∀ r, stars r p.2 = true → r ∈ P.map (·.1)) ∧ Chain stars P

/-- The primes, the last one first. -/
structure Primes [Zero T] (n : ℕ) (S : State T) (P : List (ℕ × ℕ)) : Prop where
  mem : ∀ r c, S.primes r c = true ↔ (r, c) ∈ P
  nodup : (P.map (·.1)).Nodup
  chain : Chain S.stars P
  lt : ∀ p ∈ P, p.1 < n ∧ p.2 < n
  isZero : ∀ p ∈ P, S.matrix p.1 p.2 = 0
  unstarred : ∀ p ∈ P, S.stars p.1 p.2 = false

/-- Before steps 3 and 5. -/
structure Search [AddCommGroup T] [LinearOrder T] (n : ℕ) (costs : ℕ → ℕ → T) (S : State T)
    (P : List (ℕ × ℕ)) : Prop extends Base n costs S, Primes n S P where
  rowMask : ∀ r, S.rowMask r = true ↔ r ∈ P.map (·.1)
  starred : ∀ r ∈ P.map (·.1), ∃ c, S.stars r c = true
  colMask : ∀ c, S.colMask c = true ↔ ∃ r, S.stars r c = true ∧ S.rowMask r = false
  freeRow : ∃ r < n, ∀ c, S.stars r c = false
  freeCol : ∃ c < n, ∀ r, S.stars r c = false

/-- Before step 4: the last prime is in a row without stars. -/
structure Augment [AddCommGroup T] [LinearOrder T] (n : ℕ) (costs : ℕ → ℕ → T) (S : State T)
    (P : List (ℕ × ℕ)) : Prop extends Base n costs S where
  primes : Primes n S ((S.row, S.col) :: P)
  starred : ∀ r ∈ P.map (·.1), ∃ c, S.stars r c = true
  free : ∀ c, S.stars S.row c = false

/-! ### Step 1 -/

theorem step1Row_spec [DecidableEq T] [Zero T] (n : ℕ) (m : ℕ → ℕ → T) (row : ℕ) (hrow : row < n) (cols : List ℕ)
    (hcols : ∀ c ∈ cols, c < n) (p : (ℕ → ℕ → Bool) × (ℕ → ℕ → Bool)) (h1 : Matching n p.1)
    (h2 : ∀ r c, p.1 r c = true → m r c = 0) (h3 : ∀ r c, p.2 r c = false) :
    Matching n (step1Row n m row cols p).1 ∧ (∀ r c, (step1Row n m row cols p).1 r c = true → m r c = 0) ∧
      ∀ r c, (step1Row n m row cols p).2 r c = false := by
  induction cols generalizing p with
  | nil => exact ⟨h1, h2, h3⟩
  | cons c cols ih =>
    have hcols' : ∀ c ∈ cols, c < n := fun c hc => hcols c (List.mem_cons_of_mem _ hc)
    unfold step1Row
    split
    · next hz =>
      split
      · exact ih hcols' p h1 h2 h3
      · next hcol =>
        split
        · exact ⟨h1, h2, h3⟩
        · next hro =>
          rw [any_range fun r h => (h1.lt _ _ h).1] at hcol
          rw [any_range fun r h => (h1.lt _ _ h).2] at hro
          push Not at hcol hro
          refine ih hcols' _ ⟨?_, ?_, ?_⟩ ?_ ?_
          · intro r c' h
            rcases set_eq_true.1 h with h | h
            · cases h; exact ⟨hrow, hcols _ List.mem_cons_self⟩
            · exact h1.lt _ _ h
          · intro r a b ha hb
            rcases set_eq_true.1 ha with ha | ha <;> rcases set_eq_true.1 hb with hb | hb
            · cases ha; cases hb; rfl
            · cases ha; exact absurd hb (hro b)
            · cases hb; exact absurd ha (hro a)
            · exact h1.row _ _ _ ha hb
          · intro a b c' ha hb
            rcases set_eq_true.1 ha with ha | ha <;> rcases set_eq_true.1 hb with hb | hb
            · cases ha; cases hb; rfl
            · cases ha; exact absurd hb (hcol b)
            · cases hb; exact absurd ha (hcol a)
            · exact h1.col _ _ _ ha hb
          · intro r c' h
            rcases set_eq_true.1 h with h | h
            · cases h; exact hz
            · exact h2 _ _ h
          · intro r c'
            simp only [set]
            split
            · rfl
            · exact h3 r c'
    · exact ih hcols' p h1 h2 h3

theorem step1_spec [AddCommGroup T] [LinearOrder T] {n : ℕ} {costs : ℕ → ℕ → T} {S : State T}
    (h : Clean n costs S) : Clean n costs (step1 n S) := by
  have key : ∀ (rows : List ℕ) (p : (ℕ → ℕ → Bool) × (ℕ → ℕ → Bool)), (∀ r ∈ rows, r < n) → Matching n p.1 →
      (∀ r c, p.1 r c = true → S.matrix r c = 0) → (∀ r c, p.2 r c = false) →
      let q := rows.foldl (fun p row => step1Row n S.matrix row (List.range n) p) p
      Matching n q.1 ∧ (∀ r c, q.1 r c = true → S.matrix r c = 0) ∧ ∀ r c, q.2 r c = false := by
    intro rows
    induction rows with
    | nil => intro p _ h1 h2 h3; exact ⟨h1, h2, h3⟩
    | cons row rows ih =>
      intro p hr h1 h2 h3
      obtain ⟨g1, g2, g3⟩ := step1Row_spec n S.matrix row (hr row List.mem_cons_self) (List.range n)
        (fun c hc => List.mem_range.1 hc) p h1 h2 h3
      exact ih _ (fun r h => hr r (List.mem_cons_of_mem _ h)) g1 g2 g3
  obtain ⟨g1, g2, g3⟩ := key (List.range n) (S.stars, S.primes) (fun r hr => List.mem_range.1 hr) h.stars h.zero
    h.primes
  exact { reduced := h.reduced, stars := g1, zero := g2, primes := g3, rowMask := h.rowMask, colMask := h.colMask }

/-! ### Step 2 -/

/-- The stars as a finite set. -/
def starSet (n : ℕ) (stars : ℕ → ℕ → Bool) : Finset (ℕ × ℕ) :=
  (Finset.range n ×ˢ Finset.range n).filter fun p => stars p.1 p.2 = true

theorem mem_starSet {n : ℕ} {stars : ℕ → ℕ → Bool} (h : Matching n stars) (p : ℕ × ℕ) :
    p ∈ starSet n stars ↔ stars p.1 p.2 = true := by
  simp only [starSet, Finset.mem_filter, Finset.mem_product, Finset.mem_range]
  exact ⟨fun h => h.2, fun h' => ⟨h.lt _ _ h', h'⟩⟩

theorem coveredColumns_eq (n : ℕ) (S : State T) : coveredColumns n S = (starSet n S.stars).card := by
  unfold coveredColumns starSet
  rw [Finset.card_filter, Finset.sum_product]
  have : ∀ row, (List.range n).countP (fun col => S.stars row col) =
      ∑ col ∈ Finset.range n, if S.stars row col = true then 1 else 0 := by
    intro row
    rw [← Finset.card_filter, List.countP_eq_length_filter]
    show _ = (List.filter (fun col => decide (S.stars row col = true)) (List.range n)).length
    simp
  simp only [this]
  rfl

theorem card_rows {n : ℕ} {stars : ℕ → ℕ → Bool} (h : Matching n stars) :
    ((starSet n stars).image (·.1)).card = (starSet n stars).card := by
  refine Finset.card_image_of_injOn ?_
  rintro ⟨r, c⟩ h1 ⟨r', c'⟩ h2 (e : r = r')
  subst e
  rw [Finset.mem_coe, mem_starSet h] at h1 h2
  rw [h.row r c c' h1 h2]

theorem card_cols {n : ℕ} {stars : ℕ → ℕ → Bool} (h : Matching n stars) :
    ((starSet n stars).image (·.2)).card = (starSet n stars).card := by
  refine Finset.card_image_of_injOn ?_
  rintro ⟨r, c⟩ h1 ⟨r', c'⟩ h2 (e : c = c')
  subst e
  rw [Finset.mem_coe, mem_starSet h] at h1 h2
  rw [h.col r r' c h1 h2]

theorem image_rows_subset (n : ℕ) (stars : ℕ → ℕ → Bool) : (starSet n stars).image (·.1) ⊆ Finset.range n := by
  intro r hr
  obtain ⟨p, hp, rfl⟩ := Finset.mem_image.1 hr
  simp only [starSet, Finset.mem_filter, Finset.mem_product] at hp
  exact hp.1.1

theorem image_cols_subset (n : ℕ) (stars : ℕ → ℕ → Bool) : (starSet n stars).image (·.2) ⊆ Finset.range n := by
  intro r hr
  obtain ⟨p, hp, rfl⟩ := Finset.mem_image.1 hr
  simp only [starSet, Finset.mem_filter, Finset.mem_product] at hp
  exact hp.1.2

theorem all_rows {n : ℕ} {stars : ℕ → ℕ → Bool} (h : Matching n stars) (hc : n ≤ (starSet n stars).card) :
    ∀ r < n, ∃ c, stars r c = true := by
  intro r hr
  have he : (starSet n stars).image (·.1) = Finset.range n :=
    Finset.eq_of_subset_of_card_le (image_rows_subset n stars) (by rw [card_rows h, Finset.card_range]; exact hc)
  have hm : r ∈ (starSet n stars).image (·.1) := by rw [he]; exact Finset.mem_range.2 hr
  obtain ⟨p, hp, rfl⟩ := Finset.mem_image.1 hm
  exact ⟨p.2, (mem_starSet h p).1 hp⟩

theorem free_row {n : ℕ} {stars : ℕ → ℕ → Bool} (h : Matching n stars) (hc : (starSet n stars).card < n) :
    ∃ r < n, ∀ c, stars r c = false := by
  by_contra hcon
  push Not at hcon
  have : Finset.range n ⊆ (starSet n stars).image (·.1) := by
    intro r hr
    obtain ⟨c, hs⟩ := hcon r (Finset.mem_range.1 hr)
    exact Finset.mem_image.2 ⟨(r, c), (mem_starSet h _).2 (by simpa using hs), rfl⟩
  have := Finset.card_le_card this
  rw [Finset.card_range, card_rows h] at this
  omega

theorem free_col {n : ℕ} {stars : ℕ → ℕ → Bool} (h : Matching n stars) (hc : (starSet n stars).card < n) :
    ∃ c < n, ∀ r, stars r c = false := by
  by_contra hcon
  push Not at hcon
  have : Finset.range n ⊆ (starSet n stars).image (·.2) := by
    intro c hr
    obtain ⟨r, hs⟩ := hcon c (Finset.mem_range.1 hr)
    exact Finset.mem_image.2 ⟨(r, c), (mem_starSet h _).2 (by simpa using hs), rfl⟩
  have := Finset.card_le_card this
  rw [Finset.card_range, card_cols h] at this
  omega

theorem step2_spec [AddCommGroup T] [LinearOrder T] {n : ℕ} {costs : ℕ → ℕ → T} {S : State T}
    (h : Clean n costs S) :
    ((step2 n S).1 = 0 ∧ (step2 n S).2.stars = S.stars ∧ n ≤ (starSet n S.stars).card) ∨
      ((step2 n S).1 = 3 ∧ (step2 n S).2.stars = S.stars ∧ Search n costs (step2 n S).2 []) := by
  unfold step2
  by_cases hc : coveredColumns n S ≥ n
  · left
    rw [if_pos hc]
    rw [coveredColumns_eq] at hc
    exact ⟨rfl, rfl, hc⟩
  · right
    rw [if_neg hc]
    rw [coveredColumns_eq, ge_iff_le, not_le] at hc
    refine ⟨rfl, rfl, ?_⟩
    refine
      { reduced := h.reduced, stars := h.stars, zero := h.zero, mem := ?_, nodup := by simp, chain := trivial
        lt := by simp, isZero := by simp, unstarred := by simp, rowMask := ?_, starred := by simp, colMask := ?_
        freeRow := free_row h.stars hc, freeCol := free_col h.stars hc }
    · intro r c; simp [h.primes r c]
    · intro r; simp [h.rowMask r]
    · intro c
      simp only [h.colMask c, Bool.false_or, h.rowMask, and_true]
      exact any_range fun r hr => (h.stars.lt _ _ hr).1

/-! ### Step 3 -/

theorem findUncoveredZero_none [DecidableEq T] [Zero T] {n : ℕ} {S : State T}
    (h : findUncoveredZero n S = none) :
    ∀ r < n, ∀ c < n, S.rowMask r = false → S.colMask c = false → S.matrix r c ≠ 0 := by
  intro r hr c hc h1 h2 h3
  unfold findUncoveredZero at h
  rw [List.findSome?_eq_none_iff] at h
  have := h r (List.mem_range.2 hr)
  rw [h1] at this
  simp only [Bool.false_eq_true, if_false, Option.map_eq_none_iff, List.find?_eq_none] at this
  have := this c (List.mem_range.2 hc)
  simp [h2, h3] at this

theorem findUncoveredZero_some [DecidableEq T] [Zero T] {n : ℕ} {S : State T} {r c : ℕ}
    (h : findUncoveredZero n S = some (r, c)) :
    r < n ∧ c < n ∧ S.rowMask r = false ∧ S.colMask c = false ∧ S.matrix r c = 0 := by
  unfold findUncoveredZero at h
  obtain ⟨r', hr', h⟩ := List.exists_of_findSome?_eq_some h
  split at h
  · cases h
  · next hm =>
    rw [Option.map_eq_some_iff] at h
    obtain ⟨c', hc', he⟩ := h
    cases he
    have h1 := List.find?_some hc'
    have h2 := List.mem_of_find?_eq_some hc'
    simp only [Bool.and_eq_true, Bool.not_eq_true', beq_iff_eq] at h1
    exact ⟨List.mem_range.1 hr', List.mem_range.1 h2, by simpa using hm, h1.1, h1.2⟩

theorem set_false_of {f : ℕ → ℕ → Bool} {r c : ℕ} (h : f r c = false) : set f r c false = f := by
  funext i j
  unfold set
  split
  · next e => rw [e.1, e.2, h]
  · rfl

theorem step3_spec [AddCommGroup T] [LinearOrder T] {n : ℕ} {costs : ℕ → ℕ → T} {S : State T}
    {P : List (ℕ × ℕ)} (h : Search n costs S P) :
    ((step3 n S).1 = 5 ∧ (step3 n S).2 = S ∧
      ∀ r < n, ∀ c < n, S.rowMask r = false → S.colMask c = false → S.matrix r c ≠ 0) ∨
    ((step3 n S).1 = 3 ∧ (step3 n S).2.stars = S.stars ∧ ∃ p, Search n costs (step3 n S).2 (p :: P)) ∨
    ((step3 n S).1 = 4 ∧ (step3 n S).2.stars = S.stars ∧ Augment n costs (step3 n S).2 P) := by
  unfold step3
  cases hz : findUncoveredZero n S with
  | none => exact Or.inl ⟨rfl, rfl, findUncoveredZero_none hz⟩
  | some p =>
    obtain ⟨row, col⟩ := p
    right
    obtain ⟨hr, hc, hrm, hcm, hzero⟩ := findUncoveredZero_some hz
    have hstar : S.stars row col = false := by
      by_contra hcon
      have : S.colMask col = true := (h.colMask col).2 ⟨row, by simpa using hcon, hrm⟩
      rw [hcm] at this; cases this
    have hrow : row ∉ P.map (·.1) := by
      intro hcon
      rw [(h.rowMask row).2 hcon] at hrm; cases hrm
    have hprimes : ∀ (S' : State T), S'.primes = set S.primes row col true → S'.stars = S.stars →
        S'.matrix = S.matrix → Primes n S' ((row, col) :: P) := by
      intro S' e1 e2 e3
      refine ⟨?_, ?_, ⟨?_, ?_⟩, ?_, ?_, ?_⟩
      · intro r c
        rw [e1, set_eq_true, h.mem, List.mem_cons]
      · rw [List.map_cons, List.nodup_cons]; exact ⟨hrow, h.nodup⟩
      · intro r hs
        rw [e2] at hs
        by_contra hcon
        have hm : S.rowMask r = false := by
          rw [← Bool.not_eq_true, h.rowMask]; exact hcon
        rw [(h.colMask col).2 ⟨r, hs, hm⟩] at hcm; cases hcm
      · rw [e2]; exact h.chain
      · intro p hp
        rcases List.mem_cons.1 hp with rfl | hp
        · exact ⟨hr, hc⟩
        · exact h.lt p hp
      · intro p hp
        rw [e3]
        rcases List.mem_cons.1 hp with rfl | hp
        · exact hzero
        · exact h.isZero p hp
      · intro p hp
        rw [e2]
        rcases List.mem_cons.1 hp with rfl | hp
        · exact hstar
        · exact h.unstarred p hp
    simp only [set_false_of hstar]
    cases hf : (List.range n).find? fun c => S.stars row c with
    | some c =>
      left
      have hs : S.stars row c = true := List.find?_some hf
      refine ⟨rfl, rfl, (row, col), ?_⟩
      have hp := hprimes { S with primes := set S.primes row col true, row := row, col := col,
                                  rowMask := setMask S.rowMask row true, colMask := setMask S.colMask c false }
        rfl rfl rfl
      refine
        { reduced := h.reduced, stars := h.stars, zero := h.zero, mem := hp.mem, nodup := hp.nodup
          chain := hp.chain, lt := hp.lt, isZero := hp.isZero, unstarred := hp.unstarred
          rowMask := ?_, starred := ?_, colMask := ?_, freeRow := h.freeRow, freeCol := h.freeCol }
      · intro r
        simp only [setMask, List.map_cons, List.mem_cons]
        split
        · next e => simp [e]
        · next e => rw [h.rowMask]; simp [e]
      · intro r hr
        rw [List.map_cons, List.mem_cons] at hr
        rcases hr with rfl | hr
        · exact ⟨c, hs⟩
        · exact h.starred r hr
      · intro c'
        simp only [setMask]
        split
        · next e =>
          subst e
          simp only [Bool.false_eq_true, false_iff, not_exists, not_and]
          intro r hs'
          rw [if_pos (h.stars.col _ _ _ hs' hs)]; simp
        · next e =>
          rw [h.colMask]
          constructor
          · rintro ⟨r, h1, h2⟩
            refine ⟨r, h1, ?_⟩
            rw [if_neg]
            · exact h2
            · rintro rfl
              exact e (h.stars.row _ _ _ h1 hs)
          · rintro ⟨r, h1, h2⟩
            refine ⟨r, h1, ?_⟩
            split at h2
            · cases h2
            · exact h2
    | none =>
      right
      refine ⟨rfl, rfl, ?_⟩
      have hp := hprimes { S with primes := set S.primes row col true, row := row, col := col } rfl rfl rfl
      refine { reduced := h.reduced, stars := h.stars, zero := h.zero, primes := hp, starred := h.starred, free := ?_ }
      intro c
      by_contra hcon
      rw [List.find?_eq_none] at hf
      have hs : S.stars row c = true := by simpa using hcon
      exact hf c (List.mem_range.2 (h.stars.lt _ _ hs).2) hs

/-! ### Step 4 -/

/-- The part of an alternating sequence that has been collected; `c` is the current column. -/
structure Alternating (stars primes : ℕ → ℕ → Bool) (r0 c0 : ℕ) (seq : List (ℕ × ℕ)) : Prop where
  nodup : seq.Nodup
  kind : ∀ x ∈ seq, primes x.1 x.2 = true ∨ stars x.1 x.2 = true
  rowP : ∀ x ∈ seq, primes x.1 x.2 = true → x.1 = r0 ∨ ∃ c, (x.1, c) ∈ seq ∧ stars x.1 c = true
  rowS : ∀ x ∈ seq, stars x.1 x.2 = true → ∃ c, (x.1, c) ∈ seq ∧ primes x.1 c = true
  cols : ∀ x ∈ seq, ∀ y ∈ seq, primes x.1 x.2 = true → primes y.1 y.2 = true → x.2 = y.2 → x.1 = y.1
  start : (r0, c0) ∈ seq

theorem collect_spec {n : ℕ} {stars primes : ℕ → ℕ → Bool} (hS : Matching n stars) {r0 c0 : ℕ}
    {P : List (ℕ × ℕ)} (hmem : ∀ r c, primes r c = true ↔ (r, c) ∈ (r0, c0) :: P)
    (hnd : (((r0, c0) :: P).map (·.1)).Nodup) (hlt : ∀ p ∈ (r0, c0) :: P, p.1 < n ∧ p.2 < n)
    (hun : ∀ p ∈ (r0, c0) :: P, stars p.1 p.2 = false) (hfree : ∀ c, stars r0 c = false)
    (f : ℕ) (Q : List (ℕ × ℕ)) (c : ℕ) (seq : List (ℕ × ℕ)) (hf : Q.length < f) (hQ : Q <:+ P)
    (hch : Chain stars Q) (hH : ∀ r, stars r c = true → r ∈ Q.map (·.1))
    (hA : Alternating stars primes r0 c0 seq)
    (h6 : ∀ x ∈ seq, primes x.1 x.2 = true → x.2 ≠ c → ∃ r, stars r x.2 = true ∧ (r, x.2) ∈ seq)
    (h9 : ∀ x ∈ seq, stars x.1 x.2 = true → x.1 ∉ Q.map (·.1)) :
    ∃ seq', collect n stars primes f c seq = some seq' ∧ Alternating stars primes r0 c0 seq' ∧
      ∀ x ∈ seq', primes x.1 x.2 = true → ∀ r, stars r x.2 = true → (r, x.2) ∈ seq' := by
  have hdisj : ∀ r c, primes r c = true → stars r c = true → False := by
    intro r c h1 h2
    have := hun _ ((hmem r c).1 h1)
    simp only at this
    rw [h2] at this; cases this
  have huniq : ∀ r c c', primes r c = true → primes r c' = true → c = c' := by
    intro r c c' h1 h2
    have := List.inj_on_of_nodup_map hnd ((hmem _ _).1 h1) ((hmem _ _).1 h2) rfl
    exact congrArg Prod.snd this
  induction f generalizing Q c seq with
  | zero => omega
  | succ f ih =>
    unfold collect
    cases hfr : (List.range n).find? fun r => stars r c && !seq.contains (r, c) with
    | none =>
      rw [List.find?_eq_none] at hfr
      refine ⟨seq, rfl, hA, ?_⟩
      intro x hx hp r hs
      by_cases hxc : x.2 = c
      · rw [hxc] at hs ⊢
        have := hfr r (List.mem_range.2 (hS.lt _ _ hs).1)
        simp only [hs, Bool.true_and, Bool.not_eq_true', Bool.not_eq_false, List.contains_iff_mem] at this
        exact this
      · obtain ⟨r', h1, h2⟩ := h6 x hx hp hxc
        rw [hS.col _ _ _ hs h1]; exact h2
    | some r =>
      have h1 := List.find?_some hfr
      simp only [Bool.and_eq_true, Bool.not_eq_true', List.contains_eq_mem, decide_eq_false_iff_not] at h1
      obtain ⟨hs, hseq⟩ := h1
      have hrQ := hH r hs
      obtain ⟨⟨r', c'⟩, hpQ, e⟩ := List.mem_map.1 hrQ
      simp only at e
      subst e
      obtain ⟨Q1, Q2, hQeq⟩ := List.append_of_mem hpQ
      have hpP : (r', c') ∈ (r0, c0) :: P := List.mem_cons_of_mem _ (hQ.subset hpQ)
      have hprime : primes r' c' = true := (hmem _ _).2 hpP
      have hnseq : (r', c') ∉ seq := by
        intro hcon
        rcases hA.rowP _ hcon hprime with e | ⟨d, hd, hsd⟩
        · simp only at e
          rw [e, hfree] at hs; cases hs
        · exact h9 _ hd hsd hrQ
      have hcc : c' ≠ c := by
        rintro rfl
        exact hdisj _ _ hprime hs
      have hfind : (List.range n).find? (fun d => primes r' d && !(seq ++ [(r', c)]).contains (r', d)) = some c' := by
        cases hfc : (List.range n).find? fun d => primes r' d && !(seq ++ [(r', c)]).contains (r', d) with
        | none =>
          rw [List.find?_eq_none] at hfc
          have := hfc c' (List.mem_range.2 (hlt _ hpP).2)
          simp [hprime, hnseq, hcc] at this
        | some d =>
          have := List.find?_some hfc
          rw [Bool.and_eq_true] at this
          rw [huniq _ _ _ this.1 hprime]
      simp only [hfind]
      have hchain2 : Chain stars ((r', c') :: Q2) := by
        rw [hQeq] at hch
        clear hQeq hfind
        induction Q1 with
        | nil => exact hch
        | cons q Q1 ih => exact ih hch.2
      have hQnd : (Q.map (·.1)).Nodup := by
        rw [List.map_cons, List.nodup_cons] at hnd
        exact hnd.2.sublist (hQ.sublist.map _)
      have hsub : ∀ x, x ∈ Q2.map (·.1) → x ∈ Q.map (·.1) := by
        intro x hx
        rw [hQeq, List.map_append, List.map_cons]
        simp only [List.mem_append, List.mem_cons]
        exact Or.inr (Or.inr hx)
      have hr'Q2 : r' ∉ Q2.map (·.1) := by
        rw [hQeq, List.map_append, List.nodup_append] at hQnd
        have := hQnd.2.1
        rw [List.map_cons, List.nodup_cons] at this
        exact this.1
      have hmem2 : ∀ x, x ∈ seq ++ [(r', c)] ++ [(r', c')] ↔ x ∈ seq ∨ x = (r', c) ∨ x = (r', c') := by
        intro x; simp only [List.mem_append, List.mem_singleton, or_assoc]
      refine ih Q2 c' _ ?_ ?_ hchain2.2 hchain2.1 ?_ ?_ ?_
      · have := congrArg List.length hQeq
        simp only [List.length_append, List.length_cons] at this
        omega
      · refine List.IsSuffix.trans ⟨Q1 ++ [(r', c')], ?_⟩ hQ
        rw [hQeq]; simp
      · refine ⟨?_, ?_, ?_, ?_, ?_, ?_⟩
        · rw [List.nodup_append, List.nodup_append]
          refine ⟨⟨hA.nodup, by simp, ?_⟩, by simp, ?_⟩
          · intro a ha b hb hab
            rw [List.mem_singleton] at hb
            rw [hab, hb] at ha
            exact hseq ha
          · intro a ha b hb hab
            rw [List.mem_singleton] at hb
            rw [hab, hb, List.mem_append, List.mem_singleton] at ha
            rcases ha with ha | ha
            · exact hnseq ha
            · simp only [Prod.mk.injEq, true_and] at ha
              exact hcc ha
        · intro x hx
          rcases (hmem2 x).1 hx with hx | rfl | rfl
          · exact hA.kind x hx
          · exact Or.inr hs
          · exact Or.inl hprime
        · intro x hx hp
          rcases (hmem2 x).1 hx with hx | rfl | rfl
          · rcases hA.rowP x hx hp with e | ⟨d, hd, hsd⟩
            · exact Or.inl e
            · exact Or.inr ⟨d, (hmem2 _).2 (Or.inl hd), hsd⟩
          · exact (hdisj _ _ hp hs).elim
          · exact Or.inr ⟨c, (hmem2 _).2 (Or.inr (Or.inl rfl)), hs⟩
        · intro x hx hsx
          rcases (hmem2 x).1 hx with hx | rfl | rfl
          · obtain ⟨d, hd, hpd⟩ := hA.rowS x hx hsx
            exact ⟨d, (hmem2 _).2 (Or.inl hd), hpd⟩
          · exact ⟨c', (hmem2 _).2 (Or.inr (Or.inr rfl)), hprime⟩
          · exact (hdisj _ _ hprime hsx).elim
        · have hnew : ∀ x ∈ seq, primes x.1 x.2 = true → x.2 = c' → False := by
            intro x hx hp e
            obtain ⟨d, hsd, hd⟩ := h6 x hx hp (by rw [e]; exact hcc)
            refine h9 _ hd hsd (hsub _ (hchain2.1 d ?_))
            rw [e] at hsd; exact hsd
          intro x hx y hy hpx hpy e
          rcases (hmem2 x).1 hx with hx | rfl | rfl
          · rcases (hmem2 y).1 hy with hy | rfl | rfl
            · exact hA.cols x hx y hy hpx hpy e
            · exact (hdisj _ _ hpy hs).elim
            · exact (hnew x hx hpx e).elim
          · exact (hdisj _ _ hpx hs).elim
          · rcases (hmem2 y).1 hy with hy | rfl | rfl
            · exact (hnew y hy hpy e.symm).elim
            · exact (hdisj _ _ hpy hs).elim
            · rfl
        · exact (hmem2 _).2 (Or.inl hA.start)
      · intro x hx hp hxc
        rcases (hmem2 x).1 hx with hx | rfl | rfl
        · by_cases e : x.2 = c
          · exact ⟨r', by rw [e]; exact hs, (hmem2 _).2 (Or.inr (Or.inl (by rw [e])))⟩
          · obtain ⟨d, h1, h2⟩ := h6 x hx hp e
            exact ⟨d, h1, (hmem2 _).2 (Or.inl h2)⟩
        · exact (hdisj _ _ hp hs).elim
        · exact absurd rfl hxc
      · intro x hx hsx
        rcases (hmem2 x).1 hx with hx | rfl | rfl
        · exact fun hcon => h9 x hx hsx (hsub _ hcon)
        · exact hr'Q2
        · exact (hdisj _ _ hprime hsx).elim

theorem foldl_flip (seq : List (ℕ × ℕ)) (hnd : seq.Nodup) (stars primes : ℕ → ℕ → Bool)
    (h1 : ∀ x ∈ seq, primes x.1 x.2 = true ∨ stars x.1 x.2 = true)
    (h2 : ∀ r c, primes r c = true → stars r c = true → False) (r c : ℕ) :
    (seq.foldl flip (stars, primes)).1 r c = (if (r, c) ∈ seq then !stars r c else stars r c) ∧
      (seq.foldl flip (stars, primes)).2 r c = (if (r, c) ∈ seq then false else primes r c) := by
  induction seq generalizing stars primes with
  | nil => simp
  | cons x seq ih =>
    rw [List.nodup_cons] at hnd
    rw [List.foldl_cons]
    have hflip : flip (stars, primes) x = (set stars x.1 x.2 (!stars x.1 x.2), set primes x.1 x.2 false) := by
      unfold flip
      rcases h1 x List.mem_cons_self with h | h
      · have hs : stars x.1 x.2 = false := by
          by_contra hcon
          exact h2 _ _ h (by simpa using hcon)
        simp [h, hs]
      · simp [h]
    rw [hflip]
    have hne : ∀ y ∈ seq, (y.1, y.2) ≠ (x.1, x.2) := by
      intro y hy hcon
      have : y = x := hcon
      exact hnd.1 (this ▸ hy)
    obtain ⟨g1, g2⟩ := ih hnd.2 (set stars x.1 x.2 (!stars x.1 x.2)) (set primes x.1 x.2 false) (by
      intro y hy
      rw [set_ne (hne y hy), set_ne (hne y hy)]
      exact h1 y (List.mem_cons_of_mem _ hy)) (by
      intro a b ha hb
      by_cases e : (a, b) = (x.1, x.2)
      · cases e; simp at ha
      · rw [set_ne e] at ha hb; exact h2 _ _ ha hb)
    rw [g1, g2]
    by_cases e : (r, c) = x
    · have : (r, c) ∉ seq := e ▸ hnd.1
      rw [if_neg this, if_neg this, if_pos (by rw [e]; exact List.mem_cons_self),
        if_pos (by rw [e]; exact List.mem_cons_self)]
      subst e
      simp
    · have hne : (r, c) ≠ (x.1, x.2) := e
      rw [set_ne hne, set_ne hne]
      simp only [List.mem_cons, e, false_or, and_self]

theorem step4_spec [AddCommGroup T] [LinearOrder T] {n : ℕ} {costs : ℕ → ℕ → T} {S : State T}
    {P : List (ℕ × ℕ)} (h : Augment n costs S P) :
    ∃ S', step4 n S = some S' ∧ Clean n costs S' ∧ (starSet n S.stars).card < (starSet n S'.stars).card := by
  have hp := h.primes
  have hdisj : ∀ r c, S.primes r c = true → S.stars r c = true → False := by
    intro r c h1 h2
    have := hp.unstarred _ ((hp.mem r c).1 h1)
    simp only at this
    rw [h2] at this; cases this
  have hlen : P.length < n + 1 := by
    have hsub : P.map (·.1) ⊆ List.range n := by
      intro r hr
      obtain ⟨p, hpP, rfl⟩ := List.mem_map.1 hr
      exact List.mem_range.2 (hp.lt p (List.mem_cons_of_mem _ hpP)).1
    have hnd := hp.nodup
    rw [List.map_cons, List.nodup_cons] at hnd
    have := (hnd.2.subperm hsub).length_le
    rw [List.length_map, List.length_range] at this
    omega
  have hprime0 : S.primes S.row S.col = true := (hp.mem _ _).2 List.mem_cons_self
  obtain ⟨seq, hc, hA, h6⟩ := collect_spec h.stars hp.mem hp.nodup hp.lt hp.unstarred h.free (n + 1) P S.col
    [(S.row, S.col)] hlen List.suffix_rfl hp.chain.2 hp.chain.1
    ⟨by simp, by simpa using Or.inl hprime0, by simp, by simp [h.free], by simp, by simp⟩
    (by simp) (by simp [h.free])
  have hfl := foldl_flip seq hA.nodup S.stars S.primes hA.kind hdisj
  set p := seq.foldl flip (S.stars, S.primes) with hpdef
  -- the new stars
  have hnew : ∀ r c, (if p.2 r c then false else p.1 r c) = true ↔
      ((r, c) ∈ seq ∧ S.primes r c = true) ∨ ((r, c) ∉ seq ∧ S.stars r c = true) := by
    intro r c
    rw [(hfl r c).1, (hfl r c).2]
    by_cases hm : (r, c) ∈ seq
    · simp only [hm, if_true, Bool.false_eq_true, if_false, true_and, not_true, false_and, or_false]
      rcases hA.kind _ hm with hk | hk
      · simp only at hk
        have : S.stars r c = false := by
          by_contra hcon
          exact hdisj _ _ hk (by simpa using hcon)
        simp [hk, this]
      · simp only at hk
        have : S.primes r c = false := by
          by_contra hcon
          exact hdisj _ _ (by simpa using hcon) hk
        simp [hk, this]
    · simp only [hm, if_false, false_and, not_false_iff, true_and, false_or]
      cases hpr : S.primes r c with
      | false => simp
      | true =>
        have : S.stars r c = false := by
          by_contra hcon
          exact hdisj _ _ hpr (by simpa using hcon)
        simp [this]
  have hrowuniq : ∀ r c c', S.primes r c = true → S.primes r c' = true → c = c' := by
    intro r c c' h1 h2
    have := List.inj_on_of_nodup_map hp.nodup ((hp.mem _ _).1 h1) ((hp.mem _ _).1 h2) rfl
    exact congrArg Prod.snd this
  have hmix : ∀ r c c', (r, c) ∈ seq → S.primes r c = true → (r, c') ∉ seq → S.stars r c' = true → False := by
    intro r c c' h1 h2 h3 h4
    rcases hA.rowP _ h1 h2 with e | ⟨d, hd, hsd⟩
    · simp only at e
      rw [e, h.free] at h4; cases h4
    · simp only at hd hsd
      rw [h.stars.row _ _ _ h4 hsd] at h3
      exact h3 hd
  refine ⟨_, by unfold step4; rw [hc]; rfl, ?_, ?_⟩
  · refine { reduced := h.reduced, stars := ⟨?_, ?_, ?_⟩, zero := ?_, primes := ?_, rowMask := fun _ => rfl,
             colMask := fun _ => rfl }
    · intro r c hs
      rcases (hnew r c).1 hs with ⟨-, h1⟩ | ⟨-, h1⟩
      · exact hp.lt _ ((hp.mem r c).1 h1)
      · exact h.stars.lt _ _ h1
    · intro r c c' h1 h2
      rcases (hnew r c).1 h1 with ⟨a1, a2⟩ | ⟨a1, a2⟩ <;> rcases (hnew r c').1 h2 with ⟨b1, b2⟩ | ⟨b1, b2⟩
      · exact hrowuniq _ _ _ a2 b2
      · exact (hmix r c c' a1 a2 b1 b2).elim
      · exact (hmix r c' c b1 b2 a1 a2).elim
      · exact h.stars.row _ _ _ a2 b2
    · intro r r' c h1 h2
      rcases (hnew r c).1 h1 with ⟨a1, a2⟩ | ⟨a1, a2⟩ <;> rcases (hnew r' c).1 h2 with ⟨b1, b2⟩ | ⟨b1, b2⟩
      · exact hA.cols _ a1 _ b1 a2 b2 rfl
      · exact (b1 (h6 _ a1 a2 r' b2)).elim
      · exact (a1 (h6 _ b1 b2 r a2)).elim
      · exact h.stars.col _ _ _ a2 b2
    · intro r c hs
      rcases (hnew r c).1 hs with ⟨-, h1⟩ | ⟨-, h1⟩
      · exact hp.isZero _ ((hp.mem r c).1 h1)
      · exact h.zero _ _ h1
    · intro r c
      show (if p.2 r c then false else p.2 r c) = false
      split
      · rfl
      · next e => simpa using e
  · have hM : Matching n S.stars := h.stars
    have hM' : Matching n (fun row col => if p.2 row col then false else p.1 row col) := by
      refine ⟨?_, ?_, ?_⟩
      · intro r c hs
        rcases (hnew r c).1 hs with ⟨-, h1⟩ | ⟨-, h1⟩
        · exact hp.lt _ ((hp.mem r c).1 h1)
        · exact h.stars.lt _ _ h1
      · intro r c c' h1 h2
        rcases (hnew r c).1 h1 with ⟨a1, a2⟩ | ⟨a1, a2⟩ <;> rcases (hnew r c').1 h2 with ⟨b1, b2⟩ | ⟨b1, b2⟩
        · exact hrowuniq _ _ _ a2 b2
        · exact (hmix r c c' a1 a2 b1 b2).elim
        · exact (hmix r c' c b1 b2 a1 a2).elim
        · exact h.stars.row _ _ _ a2 b2
      · intro r r' c h1 h2
        rcases (hnew r c).1 h1 with ⟨a1, a2⟩ | ⟨a1, a2⟩ <;> rcases (hnew r' c).1 h2 with ⟨b1, b2⟩ | ⟨b1, b2⟩
        · exact hA.cols _ a1 _ b1 a2 b2 rfl
        · exact (b1 (h6 _ a1 a2 r' b2)).elim
        · exact (a1 (h6 _ b1 b2 r a2)).elim
        · exact h.stars.col _ _ _ a2 b2
    rw [← card_rows hM, ← card_rows hM']
    refine Finset.card_lt_card ⟨?_, ?_⟩
    · intro r hr
      obtain ⟨⟨r', c⟩, hm, e⟩ := Finset.mem_image.1 hr
      simp only at e
      subst e
      have hs := (mem_starSet hM _).1 hm
      simp only at hs
      by_cases hseq : (r', c) ∈ seq
      · obtain ⟨d, hd, hpd⟩ := hA.rowS _ hseq hs
        exact Finset.mem_image.2 ⟨(r', d), (mem_starSet hM' _).2 ((hnew _ _).2 (Or.inl ⟨hd, hpd⟩)), rfl⟩
      · exact Finset.mem_image.2 ⟨(r', c), (mem_starSet hM' _).2 ((hnew _ _).2 (Or.inr ⟨hseq, hs⟩)), rfl⟩
    · intro hcon
      have : S.row ∈ (starSet n S.stars).image (·.1) := hcon (Finset.mem_image.2 ⟨(S.row, S.col),
        (mem_starSet hM' _).2 ((hnew _ _).2 (Or.inl ⟨hA.start, hprime0⟩)), rfl⟩)
      obtain ⟨⟨r', c⟩, hm, e⟩ := Finset.mem_image.1 this
      simp only at e
      subst e
      have hs := (mem_starSet hM _).1 hm
      simp only [h.free] at hs
      cases hs

/-! ### Step 5 -/

theorem smallest_inner [LinearOrder T] [Zero T] (S : State T) (row : ℕ) (l : List ℕ) (v : T) :
    let x := l.foldl (fun v col =>
      if S.colMask col then v
      else if S.matrix row col ≠ 0 ∧ S.matrix row col < v then S.matrix row col else v) v
    x ≤ v ∧ (∀ c ∈ l, S.colMask c = false → S.matrix row c ≠ 0 → x ≤ S.matrix row c) ∧
      (x = v ∨ ∃ c ∈ l, S.colMask c = false ∧ S.matrix row c ≠ 0 ∧ x = S.matrix row c) := by
  induction l generalizing v with
  | nil => simp
  | cons c l ih =>
    rw [List.foldl_cons]
    by_cases hm : S.colMask c = true
    · rw [if_pos hm]
      obtain ⟨h1, h2, h3⟩ := ih v
      refine ⟨h1, ?_, ?_⟩
      · intro d hd hdm hd0
        rcases List.mem_cons.1 hd with rfl | hd
        · rw [hm] at hdm; cases hdm
        · exact h2 d hd hdm hd0
      · rcases h3 with h3 | ⟨d, hd, h3⟩
        · exact Or.inl h3
        · exact Or.inr ⟨d, List.mem_cons_of_mem _ hd, h3⟩
    · rw [if_neg hm]
      by_cases hlt : S.matrix row c ≠ 0 ∧ S.matrix row c < v
      · rw [if_pos hlt]
        obtain ⟨h1, h2, h3⟩ := ih (S.matrix row c)
        refine ⟨h1.trans hlt.2.le, ?_, ?_⟩
        · intro d hd hdm hd0
          rcases List.mem_cons.1 hd with rfl | hd
          · exact h1
          · exact h2 d hd hdm hd0
        · right
          rcases h3 with h3 | ⟨d, hd, h3⟩
          · exact ⟨c, List.mem_cons_self, by simpa using hm, hlt.1, h3⟩
          · exact ⟨d, List.mem_cons_of_mem _ hd, h3⟩
      · rw [if_neg hlt]
        obtain ⟨h1, h2, h3⟩ := ih v
        refine ⟨h1, ?_, ?_⟩
        · intro d hd hdm hd0
          rcases List.mem_cons.1 hd with rfl | hd
          · push Not at hlt
            exact h1.trans (hlt hd0)
          · exact h2 d hd hdm hd0
        · rcases h3 with h3 | ⟨d, hd, h3⟩
          · exact Or.inl h3
          · exact Or.inr ⟨d, List.mem_cons_of_mem _ hd, h3⟩

theorem smallestUncovered_spec [LinearOrder T] [Zero T] (top : T) (n : ℕ) (S : State T) :
    smallestUncovered top n S ≤ top ∧
    (∀ r < n, ∀ c < n, S.rowMask r = false → S.colMask c = false → S.matrix r c ≠ 0 →
      smallestUncovered top n S ≤ S.matrix r c) ∧
    (smallestUncovered top n S = top ∨ ∃ r < n, ∃ c < n, S.rowMask r = false ∧ S.colMask c = false ∧
      S.matrix r c ≠ 0 ∧ smallestUncovered top n S = S.matrix r c) := by
  have key : ∀ (l : List ℕ) (v : T),
      let x := l.foldl (fun v row =>
        if S.rowMask row then v
        else (List.range n).foldl (fun v col =>
          if S.colMask col then v
          else if S.matrix row col ≠ 0 ∧ S.matrix row col < v then S.matrix row col else v) v) v
      x ≤ v ∧ (∀ r ∈ l, ∀ c < n, S.rowMask r = false → S.colMask c = false → S.matrix r c ≠ 0 →
        x ≤ S.matrix r c) ∧
      (x = v ∨ ∃ r ∈ l, ∃ c < n, S.rowMask r = false ∧ S.colMask c = false ∧ S.matrix r c ≠ 0 ∧
        x = S.matrix r c) := by
    intro l
    induction l with
    | nil => intro v; simp
    | cons row l ih =>
      intro v
      rw [List.foldl_cons]
      by_cases hm : S.rowMask row = true
      · rw [if_pos hm]
        obtain ⟨h1, h2, h3⟩ := ih v
        refine ⟨h1, ?_, ?_⟩
        · intro r hr c hc hrm
          rcases List.mem_cons.1 hr with rfl | hr
          · rw [hm] at hrm; cases hrm
          · exact h2 r hr c hc hrm
        · rcases h3 with h3 | ⟨r, hr, h3⟩
          · exact Or.inl h3
          · exact Or.inr ⟨r, List.mem_cons_of_mem _ hr, h3⟩
      · rw [if_neg hm]
        obtain ⟨g1, g2, g3⟩ := smallest_inner S row (List.range n) v
        obtain ⟨h1, h2, h3⟩ := ih ((List.range n).foldl (fun v col =>
          if S.colMask col then v
          else if S.matrix row col ≠ 0 ∧ S.matrix row col < v then S.matrix row col else v) v)
        refine ⟨h1.trans g1, ?_, ?_⟩
        · intro r hr c hc hrm hcm h0
          rcases List.mem_cons.1 hr with rfl | hr
          · exact h1.trans (g2 c (List.mem_range.2 hc) hcm h0)
          · exact h2 r hr c hc hrm hcm h0
        · rcases h3 with h3 | ⟨r, hr, h3⟩
          · rcases g3 with g3 | ⟨c, hc, e1, e2, e3⟩
            · exact Or.inl (h3.trans g3)
            · exact Or.inr ⟨row, List.mem_cons_self, c, List.mem_range.1 hc, by simpa using hm, e1, e2, h3.trans e3⟩
          · exact Or.inr ⟨r, List.mem_cons_of_mem _ hr, h3⟩
  obtain ⟨h1, h2, h3⟩ := key (List.range n) top
  refine ⟨h1, fun r hr => h2 r (List.mem_range.2 hr), ?_⟩
  rcases h3 with h3 | ⟨r, hr, h3⟩
  · exact Or.inl h3
  · exact Or.inr ⟨r, List.mem_range.1 hr, h3⟩

theorem step5_matrix [LinearOrder T] [AddCommGroup T] (top : T) (n : ℕ) (S : State T) (r c : ℕ) :
    (step5 top n S).matrix r c = S.matrix r c + (if S.rowMask r then smallestUncovered top n S else 0) -
      (if S.colMask c then 0 else smallestUncovered top n S) := by
  simp only [step5]
  cases S.rowMask r <;> cases S.colMask c <;> simp

theorem step5_spec [AddCommGroup T] [LinearOrder T] [IsOrderedAddMonoid T] {top : T} (htop : 0 < top) {n : ℕ}
    {costs : ℕ → ℕ → T} {S : State T} {P : List (ℕ × ℕ)} (h : Search n costs S P)
    (hz : ∀ r < n, ∀ c < n, S.rowMask r = false → S.colMask c = false → S.matrix r c ≠ 0) :
    Search n costs (step5 top n S) P := by
  obtain ⟨h1, h2, h3⟩ := smallestUncovered_spec top n S
  have hv : 0 < smallestUncovered top n S := by
    rcases h3 with h3 | ⟨r, hr, c, hc, -, -, h0, h3⟩
    · rw [h3]; exact htop
    · rw [h3]; exact lt_of_le_of_ne (h.reduced.2 r hr c hc) h0.symm
  have hmat := step5_matrix top n S
  set v := smallestUncovered top n S with hvdef
  have hcolP : ∀ p ∈ P, S.rowMask p.1 = true ∧ S.colMask p.2 = false := by
    intro p hp
    refine ⟨(h.rowMask _).2 (List.mem_map.2 ⟨p, hp, rfl⟩), ?_⟩
    by_contra hcon
    obtain ⟨r, hs, hr⟩ := (h.colMask p.2).1 (by simpa using hcon)
    have : r ∈ P.map (·.1) := by
      have hch := h.chain
      clear hcon
      have key : ∀ Q : List (ℕ × ℕ), Chain S.stars Q → p ∈ Q → r ∈ Q.map (·.1) := by
        intro Q
        induction Q with
        | nil => intro _ h; cases h
        | cons q Q ih =>
          intro hch hpQ
          rcases List.mem_cons.1 hpQ with rfl | hpQ
          · exact List.mem_cons_of_mem _ (hch.1 r hs)
          · exact List.mem_cons_of_mem _ (ih hch.2 hpQ)
      exact key P hch hp
    rw [(h.rowMask r).2 this] at hr; cases hr
  have hstar : ∀ r c, S.stars r c = true → (S.rowMask r = true ↔ S.colMask c = false) := by
    intro r c hs
    constructor
    · intro hr
      by_contra hcon
      obtain ⟨r', hs', hr'⟩ := (h.colMask c).1 (by simpa using hcon)
      rw [h.stars.col _ _ _ hs hs', hr'] at hr; cases hr
    · intro hc
      by_contra hcon
      rw [(h.colMask c).2 ⟨r, hs, by simpa using hcon⟩] at hc; cases hc
  obtain ⟨⟨u, w, huw⟩, hnn⟩ := h.reduced
  refine
    { reduced := ⟨⟨fun r => u r - (if S.rowMask r then v else 0), fun c => w c + (if S.colMask c then 0 else v), ?_⟩, ?_⟩
      stars := h.stars, zero := ?_, mem := h.mem, nodup := h.nodup, chain := h.chain, lt := h.lt
      isZero := ?_, unstarred := h.unstarred, rowMask := h.rowMask, starred := h.starred, colMask := h.colMask
      freeRow := h.freeRow, freeCol := h.freeCol }
  · intro r hr c hc
    rw [hmat, huw r hr c hc]
    simp only
    generalize (if S.rowMask r = true then v else 0) = a
    generalize (if S.colMask c = true then 0 else v) = b
    abel
  · intro r hr c hc
    rw [hmat]
    have hm0 := hnn r hr c hc
    cases hrm : S.rowMask r with
    | true =>
      cases hcm : S.colMask c with
      | true => simpa using add_nonneg hm0 hv.le
      | false => simpa using hm0
    | false =>
      cases hcm : S.colMask c with
      | true => simpa using hm0
      | false => simpa using h2 r hr c hc hrm hcm (hz r hr c hc hrm hcm)
  · intro r c hs
    rw [hmat, h.zero r c hs]
    have := hstar r c hs
    cases hrm : S.rowMask r with
    | true =>
      have : S.colMask c = false := this.1 hrm
      simp [this]
    | false =>
      have : S.colMask c = true := by
        by_contra hcon
        rw [this.2 (by simpa using hcon)] at hrm; cases hrm
      simp [this]
  · intro p hp
    rw [hmat, h.isZero p hp, (hcolP p hp).1, (hcolP p hp).2]
    simp

/-! ### Termination -/

theorem run_succ [LinearOrder T] [AddCommGroup T] (top : T) (n f step : ℕ) (S S' : State T)
    (h : run top n f step S = some S') : run top n (f + 1) step S = some S' := by
  induction f generalizing step S with
  | zero => cases h
  | succ f ih =>
    match step, h with
    | 0, h => exact h
    | 1, h => exact ih _ _ h
    | 2, h => exact ih _ _ h
    | 3, h => exact ih _ _ h
    | 4, h =>
      unfold run at h ⊢
      obtain ⟨S1, h1, h2⟩ := Option.bind_eq_some_iff.1 h
      exact Option.bind_eq_some_iff.2 ⟨S1, h1, ih _ _ h2⟩
    | 5, h => exact ih _ _ h
    | k + 6, h => simp [run] at h

theorem run_mono [LinearOrder T] [AddCommGroup T] (top : T) (n f k step : ℕ) (S S' : State T)
    (h : run top n f step S = some S') : run top n (f + k) step S = some S' := by
  induction k with
  | zero => exact h
  | succ k ih => exact run_succ top n (f + k) step S S' ih

/-- The solver stops with a complete matching of zeros. -/
def Finishes [LinearOrder T] [AddCommGroup T] (top : T) (n : ℕ) (costs : ℕ → ℕ → T) (step : ℕ) (S : State T) : Prop :=
  ∃ f S', run top n f step S = some S' ∧ Base n costs S' ∧ n ≤ (starSet n S'.stars).card

theorem search_finishes [AddCommGroup T] [LinearOrder T] [IsOrderedAddMonoid T] [Archimedean T] {top : T}
    (htop : 0 < top) {n : ℕ} {costs : ℕ → ℕ → T} {m : ℕ}
    (IH : ∀ S : State T, Clean n costs S → m < (starSet n S.stars).card → Finishes top n costs 2 S) :
    ∀ (b : ℕ) (S : State T) (P : List (ℕ × ℕ)), n - P.length ≤ b → Search n costs S P →
      (starSet n S.stars).card = m → Finishes top n costs 3 S := by
  intro b
  induction b with
  | zero =>
    intro S P hb h _
    exfalso
    -- a free row is not covered
    obtain ⟨r, hr, hfree⟩ := h.freeRow
    have hrP : r ∉ P.map (·.1) := by
      intro hcon
      obtain ⟨c, hs⟩ := h.starred r hcon
      rw [hfree] at hs; cases hs
    have hsub : r :: P.map (·.1) ⊆ List.range n := by
      intro x hx
      rcases List.mem_cons.1 hx with rfl | hx
      · exact List.mem_range.2 hr
      · obtain ⟨p, hp, rfl⟩ := List.mem_map.1 hx
        exact List.mem_range.2 (h.lt p hp).1
    have := ((List.nodup_cons.2 ⟨hrP, h.nodup⟩).subperm hsub).length_le
    rw [List.length_cons, List.length_map, List.length_range] at this
    omega
  | succ b ihb =>
    -- progress of step 5
    have inner : ∀ (k : ℕ) (S : State T) (P : List (ℕ × ℕ)), n - P.length ≤ b + 1 → Search n costs S P →
        (starSet n S.stars).card = m →
        (∃ r < n, ∃ c < n, S.rowMask r = false ∧ S.colMask c = false ∧ S.matrix r c ≤ k • top) →
        Finishes top n costs 3 S := by
      intro k
      induction k with
      | zero =>
        intro S P hb h hm hex
        rcases step3_spec h with ⟨-, -, hz⟩ | ⟨e1, e2, p, h'⟩ | ⟨e1, e2, h'⟩
        · exfalso
          obtain ⟨r, hr, c, hc, hrm, hcm, hle⟩ := hex
          rw [zero_nsmul] at hle
          exact hz r hr c hc hrm hcm (le_antisymm hle (h.reduced.2 r hr c hc))
        · obtain ⟨f, S', hf, hd⟩ := ihb (step3 n S).2 (p :: P) (by rw [List.length_cons]; omega) h' (by rw [e2]; exact hm)
          exact ⟨f + 1, S', by unfold run; simp only [e1, hf], hd⟩
        · obtain ⟨S1, hs, hcl, hlt⟩ := step4_spec h'
          rw [e2, hm] at hlt
          obtain ⟨f, S', hf, hd⟩ := IH S1 hcl hlt
          exact ⟨f + 2, S', by unfold run; simp only [e1]; unfold run; simp only [hs, Option.bind_some, hf], hd⟩
      | succ k ihk =>
        intro S P hb h hm hex
        rcases step3_spec h with ⟨e1, e2, hz⟩ | ⟨e1, e2, p, h'⟩ | ⟨e1, e2, h'⟩
        · have h5 := step5_spec htop h hz
          obtain ⟨v1, v2, v3⟩ := smallestUncovered_spec top n S
          obtain ⟨f, S', hf, hd⟩ := ihk (step5 top n S) P hb h5 hm (by
            rcases v3 with v3 | ⟨r, hr, c, hc, hrm, hcm, h0, v3⟩
            · obtain ⟨r, hr, c, hc, hrm, hcm, hle⟩ := hex
              refine ⟨r, hr, c, hc, hrm, hcm, ?_⟩
              rw [step5_matrix, hrm, hcm, v3]
              simp only [Bool.false_eq_true, if_false, add_zero]
              rw [sub_le_iff_le_add, ← succ_nsmul]
              exact hle
            · refine ⟨r, hr, c, hc, hrm, hcm, ?_⟩
              rw [step5_matrix, hrm, hcm, v3]
              simp only [Bool.false_eq_true, if_false, add_zero, sub_self]
              exact nsmul_nonneg htop.le k)
          exact ⟨f + 2, S', by unfold run; simp only [e1, e2]; unfold run; exact hf, hd⟩
        · obtain ⟨f, S', hf, hd⟩ := ihb (step3 n S).2 (p :: P) (by rw [List.length_cons]; omega) h' (by rw [e2]; exact hm)
          exact ⟨f + 1, S', by unfold run; simp only [e1, hf], hd⟩
        · obtain ⟨S1, hs, hcl, hlt⟩ := step4_spec h'
          rw [e2, hm] at hlt
          obtain ⟨f, S', hf, hd⟩ := IH S1 hcl hlt
          exact ⟨f + 2, S', by unfold run; simp only [e1]; unfold run; simp only [hs, Option.bind_some, hf], hd⟩
    intro S P hb h hm
    obtain ⟨r, hr, hfr⟩ := h.freeRow
    obtain ⟨c, hc, hfc⟩ := h.freeCol
    obtain ⟨k, hk⟩ := Archimedean.arch (S.matrix r c) htop
    refine inner k S P hb h hm ⟨r, hr, c, hc, ?_, ?_, hk⟩
    · rw [← Bool.not_eq_true, h.rowMask]
      intro hcon
      obtain ⟨d, hs⟩ := h.starred r hcon
      rw [hfr] at hs; cases hs
    · rw [← Bool.not_eq_true, h.colMask]
      rintro ⟨d, hs, -⟩
      rw [hfc] at hs; cases hs

theorem clean_finishes [AddCommGroup T] [LinearOrder T] [IsOrderedAddMonoid T] [Archimedean T] {top : T}
    (htop : 0 < top) {n : ℕ} {costs : ℕ → ℕ → T} :
    ∀ (a : ℕ) (S : State T), n - (starSet n S.stars).card ≤ a → Clean n costs S → Finishes top n costs 2 S := by
  intro a
  induction a with
  | zero =>
    intro S ha h
    rcases step2_spec h with ⟨e1, e2, hc⟩ | ⟨e1, e2, h'⟩
    · exact ⟨2, (step2 n S).2, by unfold run; simp only [e1]; rfl, ⟨h.reduced, e2 ▸ h.stars, fun r c hs =>
        h.zero r c (e2 ▸ hs)⟩, e2 ▸ hc⟩
    · exfalso
      obtain ⟨r, hr, hf⟩ := h'.freeRow
      obtain ⟨c, hs⟩ := all_rows h.stars (by omega) r hr
      have := hf c
      rw [e2, hs] at this
      cases this
  | succ a ih =>
    intro S ha h
    rcases step2_spec h with ⟨e1, e2, hc⟩ | ⟨e1, e2, h'⟩
    · exact ⟨2, (step2 n S).2, by unfold run; simp only [e1]; rfl, ⟨h.reduced, e2 ▸ h.stars, fun r c hs =>
        h.zero r c (e2 ▸ hs)⟩, e2 ▸ hc⟩
    · obtain ⟨f, S', hf, hd⟩ := search_finishes htop (m := (starSet n S.stars).card) (fun S1 h1 hlt => by
        refine ih S1 ?_ h1
        omega) n (step2 n S).2 [] (by simp) h' (by rw [e2])
      exact ⟨f + 1, S', by unfold run; simp only [e1, hf], hd⟩

end Aleph.Munkres
