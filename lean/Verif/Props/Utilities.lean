import Verif.Model.Utilities
import Mathlib.Tactic.Linarith
import Mathlib.Tactic.Ring
import Mathlib.Tactic.NormNum
import Mathlib.Data.Nat.Log
import Mathlib.Data.List.Lex
import Mathlib.Tactic.IntervalCases

/-!
# C125 to C127: points, formatted numbers and operators for vectors
-/

namespace Aleph.Utilities

/-! ### C125: points -/

section Points
variable {α : Type}

/-- C125 (partial). For points of the same dimension, `==` and `!=` compare all coordinates.  For points of different dimensions, see `C125_dimensions`. -/
theorem _root_.Aleph.C125_equality_partial [DecidableEq α] (p q : List α) (h : p.length = q.length) :
    pointEq p q = some (decide (p = q)) ∧ pointNe p q = some (decide (p ≠ q)) := by
  have key : pointEq p q = some (decide (p = q)) := by
    induction p generalizing q with
    | nil =>
      have : q = [] := List.length_eq_zero_iff.1 h.symm
      subst this
      simp [pointEq]
    | cons a p ih =>
      cases q with
      | nil => simp at h
      | cons b q =>
        simp only [pointEq]
        by_cases hab : a = b
        · rw [if_pos hab, ih q (by simpa using h)]
          simp [hab]
        · simp [hab]
  refine ⟨key, ?_⟩
  rw [pointNe, key]
  simp

/-- C125. For points of different dimensions, `==` looks at the dimension of the first point only: a point is equal to each point that it is a prefix of, and comparing a point
with a proper prefix of itself reads memory after the end of a vector. -/
theorem _root_.Aleph.C125_dimensions [DecidableEq α] (p q : List α) :
    (pointEq p q = some true ↔ p <+: q) ∧ (pointEq p q = none ↔ q <+: p ∧ q ≠ p) ∧ (pointEq p q = some false ↔ ¬ p <+: q ∧ ¬ q <+: p) := by
  induction p generalizing q with
  | nil =>
    refine ⟨by simp [pointEq], ?_, by simp [pointEq]⟩
    simp only [pointEq, reduceCtorEq, false_iff, List.prefix_nil]
    tauto
  | cons a p ih =>
    cases q with
    | nil => simp [pointEq]
    | cons b q =>
      simp only [pointEq, List.cons_prefix_cons]
      by_cases hab : a = b
      · subst hab
        simpa using ih q
      · have hba : ¬ b = a := fun h => hab h.symm
        simp [hab, hba]

/-- Equality of points is not symmetric, and not even defined for all points. -/
example : pointEq [1, 2] [1, 2, 3] = some true ∧ pointEq [1, 2, 3] [1, 2] = none ∧ pointEq [1, 3] [1, 2, 3] = some false := by decide

variable [LinearOrder α]

/-- C125. The order of points compares the first coordinates that differ, and dimensions if there are none. -/
theorem _root_.Aleph.C125_order (p q : List α) :
    pointLt p q = true ↔ (p <+: q ∧ p ≠ q) ∨ ∃ (c : List α) (a b : α) (p' q' : List α), p = c ++ a :: p' ∧ q = c ++ b :: q' ∧ a < b := by
  induction p generalizing q with
  | nil =>
    cases q with
    | nil => simp [pointLt]
    | cons b q => simp [pointLt]
  | cons a p ih =>
    cases q with
    | nil => simp [pointLt]
    | cons b q =>
      simp only [pointLt]
      by_cases hab : a < b
      · rw [if_pos hab]
        simp only [true_iff]
        exact Or.inr ⟨[], a, b, p, q, rfl, rfl, hab⟩
      · rw [if_neg hab]
        by_cases hba : b < a
        · rw [if_pos hba]
          simp only [Bool.false_eq_true, false_iff]
          rintro (⟨h, _⟩ | ⟨c, x, y, p', q', h1, h2, h3⟩)
          · exact hba.ne' (List.cons_prefix_cons.1 h).1
          · cases c with
            | nil =>
              simp only [List.nil_append, List.cons.injEq] at h1 h2
              rw [← h1.1, ← h2.1] at h3
              exact hab h3
            | cons z c =>
              simp only [List.cons_append, List.cons.injEq] at h1 h2
              rw [h1.1, h2.1] at hba
              exact lt_irrefl _ hba
        · rw [if_neg hba, ih]
          have e : a = b := le_antisymm (not_lt.1 hba) (not_lt.1 hab)
          subst e
          constructor
          · rintro (⟨h1, h2⟩ | ⟨c, x, y, p', q', h1, h2, h3⟩)
            · exact Or.inl ⟨by simpa using h1, by simpa using h2⟩
            · exact Or.inr ⟨a :: c, x, y, p', q', by rw [h1]; rfl, by rw [h2]; rfl, h3⟩
          · rintro (⟨h1, h2⟩ | ⟨c, x, y, p', q', h1, h2, h3⟩)
            · exact Or.inl ⟨by simpa using h1, by simpa using h2⟩
            · cases c with
              | nil =>
                simp only [List.nil_append, List.cons.injEq] at h1 h2
                rw [← h1.1, ← h2.1] at h3
                exact absurd h3 (lt_irrefl _)
              | cons z c =>
                simp only [List.cons_append, List.cons.injEq] at h1 h2
                exact Or.inr ⟨c, x, y, p', q', h1.2, h2.2, h3⟩

/-- C125. The order of points is a strict total order: irreflexive, transitive, and any two different points are comparable. -/
theorem _root_.Aleph.C125_total_order :
    (∀ p : List α, pointLt p p = false) ∧
    (∀ p q r : List α, pointLt p q = true → pointLt q r = true → pointLt p r = true) ∧
    (∀ p q : List α, p ≠ q → pointLt p q = true ∨ pointLt q p = true) := by
  refine ⟨?_, ?_, ?_⟩
  · intro p
    induction p with
    | nil => rfl
    | cons a p ih => simpa [pointLt] using ih
  · intro p
    induction p with
    | nil =>
      intro q r h1 h2
      cases r with
      | nil => cases q <;> simp [pointLt] at h2
      | cons c r => rfl
    | cons a p ih =>
      intro q r h1 h2
      cases q with
      | nil => simp [pointLt] at h1
      | cons b q =>
        cases r with
        | nil => simp [pointLt] at h2
        | cons c r =>
          simp only [pointLt] at h1 h2 ⊢
          split at h1
          · rename_i hab
            split at h2
            · rename_i hbc
              rw [if_pos (hab.trans hbc)]
            · split at h2
              · simp at h2
              · rename_i h3 h4
                have e : b = c := le_antisymm (not_lt.1 h4) (not_lt.1 h3)
                subst e
                rw [if_pos hab]
          · split at h1
            · simp at h1
            · rename_i h3 h4
              have e : a = b := le_antisymm (not_lt.1 h4) (not_lt.1 h3)
              subst e
              split at h2
              · rename_i hbc
                rw [if_pos hbc]
              · split at h2
                · simp at h2
                · rename_i h5 h6
                  rw [if_neg h5, if_neg h6]
                  exact ih q r h1 h2
  · intro p
    induction p with
    | nil =>
      intro q h
      cases q with
      | nil => exact absurd rfl h
      | cons b q => exact Or.inl rfl
    | cons a p ih =>
      intro q h
      cases q with
      | nil => exact Or.inr rfl
      | cons b q =>
        simp only [pointLt]
        rcases lt_trichotomy a b with hab | rfl | hab
        · left; rw [if_pos hab]
        · simp only [lt_irrefl, if_false]
          exact ih q (by simpa using h)
        · right; rw [if_pos hab]

/-- C125. The output of a point are its coordinates, separated by single blanks. -/
theorem _root_.Aleph.C125_output {β : Type} (out : β → List Char) (p : List β) : pointOut out p = [' '].intercalate (p.map out) := by
  have key : ∀ (p : List β) (k : ℕ), k ≠ 0 →
      ((p.zipIdx k).map fun c => (if c.2 ≠ 0 then [' '] else []) ++ out c.1).flatten = (p.map fun a => ' ' :: out a).flatten := by
    intro p
    induction p with
    | nil => simp
    | cons a p ih =>
      intro k hk
      simp only [List.zipIdx_cons, List.map_cons, List.flatten_cons]
      rw [ih (k + 1) (by omega)]
      simp [hk]
  have key2 : ∀ (p : List (List Char)) (a : List Char), [' '].intercalate (a :: p) = a ++ (p.map fun b => ' ' :: b).flatten := by
    intro p
    induction p with
    | nil => intro a; simp [List.intercalate]
    | cons b p ih =>
      intro a
      have := ih b
      simp only [List.intercalate, List.intersperse_cons_cons, List.flatten_cons, List.map_cons] at this ⊢
      rw [this]
      simp
  cases p with
  | nil => simp [pointOut, List.intercalate]
  | cons a p =>
    rw [List.map_cons, key2, pointOut, List.zipIdx_cons, List.map_cons, List.flatten_cons, key p 1 one_ne_zero, List.map_map]
    simp [Function.comp_def]

example : pointLt [1, 2] [1, 3] = true ∧ pointLt [1, 3] [1, 2] = false ∧ pointLt [1] [1, 0] = true ∧
    pointOut (fun n : ℕ => [Char.ofNat (48 + n)]) [1, 2, 3] = "1 2 3".toList := by decide

end Points

/-! ### C126: formatted numbers -/

/-- The number that a sequence of decimal digits denotes. -/
def _root_.Aleph.Spec.decimalValue (s : List Char) : ℕ := s.foldl (fun v c => 10 * v + (c.toNat - 48)) 0

/-- The characters are digits. -/
def _root_.Aleph.Spec.AllDigits (s : List Char) : Prop := ∀ c ∈ s, 48 ≤ c.toNat ∧ c.toNat ≤ 57

/-- The usual notation of a number: digits, at least one of them, that denote the number, without leading zeroes unless the number is zero. -/
def _root_.Aleph.Spec.IsUsualNotation (n : ℕ) (s : List Char) : Prop :=
  s ≠ [] ∧ Spec.AllDigits s ∧ Spec.decimalValue s = n ∧ (s.head? = some '0' → s = ['0'])

theorem toNat_injective {c d : Char} (h : c.toNat = d.toNat) : c = d := Char.ext (UInt32.toNat_inj.1 h)

theorem toNat_digit {d : ℕ} (hd : d < 10) : (Char.ofNat (48 + d)).toNat = 48 + d := by
  interval_cases d <;> rfl

theorem decimalValue_append (s : List Char) (c : Char) : Spec.decimalValue (s ++ [c]) = 10 * Spec.decimalValue s + (c.toNat - 48) := by
  simp [Spec.decimalValue]

theorem decimal_spec (n : ℕ) : Spec.IsUsualNotation n (decimal n) := by
  induction n using Nat.strong_induction_on with
  | _ n ih =>
    rw [decimal]
    split
    · rename_i h
      refine ⟨by simp, ?_, ?_, ?_⟩
      · intro c hc
        rw [List.mem_singleton] at hc
        rw [hc, toNat_digit h]; omega
      · simp [Spec.decimalValue, toNat_digit h]
      · interval_cases n <;> decide
    · rename_i h
      obtain ⟨h1, h2, h3, h4⟩ := ih (n / 10) (by omega)
      refine ⟨by simp, ?_, ?_, ?_⟩
      · intro c hc
        rcases List.mem_append.1 hc with hc | hc
        · exact h2 c hc
        · rw [List.mem_singleton] at hc
          rw [hc, toNat_digit (Nat.mod_lt _ (by norm_num))]
          have := Nat.mod_lt n (by norm_num : 10 > 0)
          omega
      · rw [decimalValue_append, h3, toNat_digit (Nat.mod_lt _ (by norm_num))]
        omega
      · intro h0
        cases hs : decimal (n / 10) with
        | nil => exact absurd hs h1
        | cons a l =>
          rw [hs] at h0 h4 h3
          simp only [List.cons_append, List.head?_cons, Option.some.injEq] at h0
          subst h0
          have := h4 rfl
          rw [this] at h3
          simp [Spec.decimalValue] at h3
          omega

theorem value_lt (s : List Char) (h : Spec.AllDigits s) : Spec.decimalValue s < 10 ^ s.length := by
  induction s using List.reverseRecOn with
  | nil => simp [Spec.decimalValue]
  | append_singleton s c ih =>
    rw [decimalValue_append, List.length_append, List.length_singleton, pow_succ]
    have := ih fun c hc => h c (List.mem_append_left _ hc)
    have := h c (by simp)
    omega

theorem value_cons (c : Char) (s : List Char) : Spec.decimalValue (c :: s) = (c.toNat - 48) * 10 ^ s.length + Spec.decimalValue s := by
  induction s using List.reverseRecOn with
  | nil => simp [Spec.decimalValue]
  | append_singleton s d ih =>
    rw [← List.cons_append, decimalValue_append, decimalValue_append, ih, List.length_append, List.length_singleton, pow_succ]
    ring

theorem decimal_bounds {n : ℕ} {s : List Char} (h : Spec.IsUsualNotation n s) (hn : 0 < n) : 10 ^ (s.length - 1) ≤ n ∧ n < 10 ^ s.length := by
  obtain ⟨h1, h2, h3, h4⟩ := h
  refine ⟨?_, by rw [← h3]; exact value_lt s h2⟩
  cases s with
  | nil => exact absurd rfl h1
  | cons c s =>
    rw [value_cons] at h3
    have hc := h2 c (by simp)
    have : c.toNat ≠ 48 := by
      intro h0
      have e : c = '0' := toNat_injective h0
      subst e
      have := h4 rfl
      simp only [List.cons.injEq, true_and] at this
      subst this
      simp [Spec.decimalValue] at h3
      omega
    rw [List.length_cons, Nat.add_sub_cancel, ← h3]
    have : 1 ≤ c.toNat - 48 := by omega
    calc 10 ^ s.length = 1 * 10 ^ s.length := (one_mul _).symm
      _ ≤ (c.toNat - 48) * 10 ^ s.length := Nat.mul_le_mul_right _ this
      _ ≤ _ := Nat.le_add_right _ _

theorem width_eq {N w : ℕ} (h1 : 10 ^ w ≤ N) (h2 : N < 10 ^ (w + 1)) : (⌊Real.logb 10 N + 1⌋).toNat = w + 1 := by
  have hN : (0 : ℝ) < N := by
    have : 0 < 10 ^ w := by positivity
    exact_mod_cast lt_of_lt_of_le this h1
  have : ⌊Real.logb 10 N + 1⌋ = (w : ℤ) + 1 := by
    rw [Int.floor_eq_iff]
    push_cast
    constructor
    · have : (w : ℝ) ≤ Real.logb 10 N := by
        rw [Real.le_logb_iff_rpow_le (by norm_num) hN, Real.rpow_natCast]
        exact_mod_cast h1
      linarith
    · have : Real.logb 10 N < (w : ℝ) + 1 := by
        rw [Real.logb_lt_iff_lt_rpow (by norm_num) hN]
        have e : (w : ℝ) + 1 = ((w + 1 : ℕ) : ℝ) := by push_cast; ring
        rw [e, Real.rpow_natCast]
        exact_mod_cast h2
      linarith
  rw [this]
  omega

/-- C126. The result is the usual notation of the number, after as many fill characters as are necessary to get as many characters as the maximum has digits; no digit of a number
that is larger than the maximum is lost. -/
theorem _root_.Aleph.C126_format (n N : ℕ) (fill : Char) (hN : 0 < N) :
    ∃ (k : ℕ) (s t : List Char), format n N fill = some (List.replicate k fill ++ s) ∧ Spec.IsUsualNotation n s ∧ Spec.IsUsualNotation N t ∧
      k + s.length = max s.length t.length := by
  obtain ⟨b1, b2⟩ := decimal_bounds (decimal_spec N) hN
  have hl : (decimal N).length ≠ 0 := by
    have := (decimal_spec N).1
    simpa using this
  have hw : (⌊Real.logb 10 N + 1⌋).toNat = (decimal N).length := by
    have := width_eq (w := (decimal N).length - 1) b1 (by rw [Nat.sub_add_cancel (by omega)]; exact b2)
    omega
  refine ⟨(decimal N).length - (decimal n).length, decimal n, decimal N, ?_, decimal_spec n, decimal_spec N, by omega⟩
  rw [format, if_neg hN.ne']
  simp only [hw]

/-- C126. The conversion of the logarithm of a maximum of zero is not defined. -/
theorem _root_.Aleph.C126_zero (n : ℕ) (fill : Char) : format n 0 fill = none := by simp [format]

theorem lex_iff : ∀ (s t : List Char), Spec.AllDigits s → Spec.AllDigits t → s.length = t.length → (s < t ↔ Spec.decimalValue s < Spec.decimalValue t) := by
  intro s
  induction s with
  | nil =>
    intro t _ _ h
    have : t = [] := List.length_eq_zero_iff.1 h.symm
    subst this
    simp
  | cons c s ih =>
    intro t hs ht h
    cases t with
    | nil => simp at h
    | cons d t =>
      have hs' : Spec.AllDigits s := fun c hc => hs c (List.mem_cons_of_mem _ hc)
      have ht' : Spec.AllDigits t := fun c hc => ht c (List.mem_cons_of_mem _ hc)
      have hl : s.length = t.length := by simpa using h
      have ih' := ih t hs' ht' hl
      have v1 := value_lt s hs'
      have v2 := value_lt t ht'
      have c1 := hs c (by simp)
      have d1 := ht d (by simp)
      rw [value_cons, value_cons, hl] at *
      rw [List.cons_lt_cons_iff, ih']
      have hcd : c < d ↔ c.toNat < d.toNat := by
        rw [Char.lt_def]; rfl
      have hce : c = d ↔ c.toNat = d.toNat := ⟨fun h => h ▸ rfl, fun h => toNat_injective h⟩
      rw [hcd, hce]
      generalize 10 ^ t.length = P at *
      constructor
      · rintro (h | ⟨h, h'⟩)
        · have : (c.toNat - 48) + 1 ≤ d.toNat - 48 := by omega
          have := Nat.mul_le_mul_right P this
          rw [add_mul, one_mul] at this
          omega
        · rw [h]; omega
      · intro h
        rcases lt_trichotomy c.toNat d.toNat with h' | h' | h'
        · exact Or.inl h'
        · right; rw [h'] at h; exact ⟨h', by omega⟩
        · have : (d.toNat - 48) + 1 ≤ c.toNat - 48 := by omega
          have := Nat.mul_le_mul_right P this
          rw [add_mul, one_mul] at this
          omega

theorem value_replicate (k : ℕ) (s : List Char) : Spec.decimalValue (List.replicate k '0' ++ s) = Spec.decimalValue s := by
  induction k with
  | zero => simp
  | succ k ih => rw [List.replicate_succ, List.cons_append, value_cons, ih]; simp

/-- C126. Numbers that are not larger than the maximum, padded with zeroes, are sorted as strings in the same way as they are sorted as numbers; in particular, different numbers
have different strings. -/
theorem _root_.Aleph.C126_order (n m N : ℕ) (hn : n ≤ N) (hm : m ≤ N) (hN : 0 < N) :
    ∃ s t, format n N '0' = some s ∧ format m N '0' = some t ∧ s.length = t.length ∧ Spec.decimalValue s = n ∧ Spec.decimalValue t = m ∧ (s < t ↔ n < m) := by
  have key : ∀ n ≤ N, ∃ s, format n N '0' = some s ∧ s.length = (decimal N).length ∧ Spec.decimalValue s = n ∧ Spec.AllDigits s := by
    intro n hn
    obtain ⟨k, s, t, h1, h2, h3, h4⟩ := C126_format n N '0' hN
    have hlen : ∀ (s : List Char), Spec.IsUsualNotation N s → s.length = (decimal N).length := by
      intro s hs
      have a := decimal_bounds hs hN
      have b := decimal_bounds (decimal_spec N) hN
      have l1 : s.length ≠ 0 := by simpa using hs.1
      have l2 : (decimal N).length ≠ 0 := by simpa using (decimal_spec N).1
      have c1 : s.length - 1 < (decimal N).length := (Nat.pow_lt_pow_iff_right (by norm_num : 1 < 10)).1 (lt_of_le_of_lt a.1 b.2)
      have c2 : (decimal N).length - 1 < s.length := (Nat.pow_lt_pow_iff_right (by norm_num : 1 < 10)).1 (lt_of_le_of_lt b.1 a.2)
      omega
    have hst : s.length ≤ t.length := by
      rcases Nat.eq_zero_or_pos n with rfl | hn0
      · have : s.head? = some '0' := by
          cases s with
          | nil => exact absurd rfl h2.1
          | cons c s =>
            have := h2.2.2.1
            rw [value_cons] at this
            have hc := h2.2.1 c (by simp)
            have hp : 0 < 10 ^ s.length := by positivity
            have : c.toNat = 48 := by
              by_contra hne
              have : 1 ≤ c.toNat - 48 := by omega
              have := Nat.mul_le_mul_right (10 ^ s.length) this
              omega
            rw [show c = '0' from toNat_injective this]
            rfl
        rw [h2.2.2.2 this]
        have := h3.1
        cases t with
        | nil => exact absurd rfl this
        | cons _ _ => simp
      · have a := decimal_bounds h2 hn0
        have b := decimal_bounds h3 hN
        have c1 : s.length - 1 < t.length := (Nat.pow_lt_pow_iff_right (by norm_num : 1 < 10)).1 (lt_of_le_of_lt a.1 (lt_of_le_of_lt hn b.2))
        omega
    refine ⟨_, h1, ?_, ?_, ?_⟩
    · rw [List.length_append, List.length_replicate, h4, ← hlen t h3]; omega
    · rw [value_replicate]; exact h2.2.2.1
    · intro c hc
      rcases List.mem_append.1 hc with hc | hc
      · rw [List.eq_of_mem_replicate hc]; decide
      · exact h2.2.1 c hc
  obtain ⟨s, h1, h2, h3, h4⟩ := key n hn
  obtain ⟨t, g1, g2, g3, g4⟩ := key m hm
  refine ⟨s, t, h1, g1, h2.trans g2.symm, h3, g3, ?_⟩
  rw [lex_iff s t h4 g4 (h2.trans g2.symm), h3, g3]

/-- The example of the documentation. -/
example : format 5 999 '0' = some "005".toList := by
  have hw : (⌊Real.logb 10 (999 : ℕ) + 1⌋).toNat = 3 := width_eq (by norm_num) (by norm_num)
  have hd : decimal 5 = ['5'] := by rw [decimal]; rfl
  rw [format, if_neg (by norm_num)]
  simp only [hw, hd]
  decide

/-! ### C127: operators for vectors -/

/-- C127. Sums and differences of vectors of the same size are defined, and have the sums and differences of the elements. -/
theorem _root_.Aleph.C127_elements {T : Type} [Ring T] (v w : List T) (h : v.length = w.length) :
    ∃ s d, add v w = some s ∧ sub v w = some d ∧ s.length = v.length ∧ d.length = v.length ∧
      ∀ (i : ℕ) (x y : T), v[i]? = some x → w[i]? = some y → s[i]? = some (x + y) ∧ d[i]? = some (x - y) := by
  refine ⟨_, _, by rw [add, if_pos h], by rw [sub, if_pos h], by simp [h], by simp [h], ?_⟩
  intro i x y hx hy
  simp [List.getElem?_zipWith, hx, hy]

/-- C127. The elements of a multiple are the products with the scalar, after its conversion to the type of the elements. -/
theorem _root_.Aleph.C127_scale {U V : Type} [Ring U] (cast : V → U) (lambda : V) (v : List U) :
    (scale cast lambda v).length = v.length ∧ ∀ (i : ℕ) (x : U), v[i]? = some x → (scale cast lambda v)[i]? = some (cast lambda * x) := by
  refine ⟨by simp [scale], ?_⟩
  intro i x hx
  simp [scale, hx]

/-- C127 (partial). For a scalar of a type that is converted exactly, the laws of vector spaces hold: sums are commutative and associative, multiples distribute, and differences
are inverse to sums.  A fraction of a vector of integers, however, is converted to an integer first, see `C127_truncation`. -/
theorem _root_.Aleph.C127_laws_partial {T : Type} [Ring T] (u v w : List T) (h : v.length = w.length) (hu : u.length = v.length) (a b : T) :
    add v w = add w v ∧
    (add u v).bind (fun s => add s w) = (add v w).bind (fun s => add u s) ∧
    (sub v w).bind (fun d => add d w) = some v ∧
    (add v w).map (scale id a) = add (scale id a v) (scale id a w) ∧
    some (scale id (a + b) v) = add (scale id a v) (scale id b v) ∧
    scale id (a * b) v = scale id a (scale id b v) ∧ scale id 1 v = v := by
  refine ⟨?_, ?_, ?_, ?_, ?_, ?_, ?_⟩
  · simp only [add, if_pos h, if_pos h.symm]
    rw [List.zipWith_comm]
    simp only [add_comm]
  · simp only [add, Option.bind_some, List.length_zipWith, ← h, ← hu, min_self, if_true]
    congr 1
    refine List.ext_getElem? fun i => ?_
    simp only [List.getElem?_zipWith]
    cases u[i]? <;> cases v[i]? <;> cases w[i]? <;> simp [add_assoc]
  · simp only [sub, Option.bind_some, add, List.length_zipWith, ← h, min_self, if_true]
    congr 1
    refine List.ext_getElem? fun i => ?_
    simp only [List.getElem?_zipWith]
    cases hv : v[i]? with
    | none => simp
    | some x =>
      have : i < w.length := by rw [← h]; exact (List.getElem?_eq_some_iff.1 hv).1
      rw [List.getElem?_eq_getElem this]
      simp
  · simp only [add, scale, if_pos h, List.length_map, Option.map_some]
    congr 1
    refine List.ext_getElem? fun i => ?_
    simp only [List.getElem?_zipWith, List.getElem?_map]
    cases v[i]? <;> cases w[i]? <;> simp [mul_add]
  · simp only [add, scale, List.length_map, if_true]
    congr 1
    refine List.ext_getElem? fun i => ?_
    simp only [List.getElem?_zipWith, List.getElem?_map]
    cases v[i]? <;> simp [add_mul]
  · simp [scale, mul_assoc, Function.comp_def]
  · simp [scale]

/-- C127. The half of a vector of integers is zero: the scalar is converted (truncated) before the multiplication. -/
theorem _root_.Aleph.C127_truncation (v : List ℤ) : scale (fun q : ℚ => Int.tdiv q.num q.den) (1 / 2) v = v.map fun _ => 0 := by
  refine List.map_congr_left fun x _ => ?_
  have : Int.tdiv (1 / 2 : ℚ).num ((1 / 2 : ℚ).den : ℤ) = 0 := by
    rw [show (1 / 2 : ℚ) = mkRat 1 2 by norm_num [Rat.mkRat_eq_div]]
    decide
  simp only [this, zero_mul]

theorem allcloseLoop_iff (rtol atol : ℝ) : ∀ l m : List ℝ,
    (allcloseLoop rtol atol l m = true ↔ ∀ (i : ℕ) (a b : ℝ), l[i]? = some a → m[i]? = some b → |a - b| ≤ atol + rtol * |b|) := by
  intro l
  induction l with
  | nil => intro m; simp [allcloseLoop]
  | cons a l ih =>
    intro m
    cases m with
    | nil => simp [allcloseLoop]
    | cons b m =>
      simp only [allcloseLoop]
      by_cases h : |a - b| > atol + rtol * |b|
      · rw [if_pos h]
        simp only [Bool.false_eq_true, false_iff]
        intro hall
        exact absurd (hall 0 a b rfl rfl) (not_le.2 h)
      · rw [if_neg h, ih m]
        constructor
        · intro hall i x y hx hy
          cases i with
          | zero =>
            simp only [List.getElem?_cons_zero, Option.some.injEq] at hx hy
            subst hx hy
            exact not_lt.1 h
          | succ i => exact hall i x y (by simpa using hx) (by simpa using hy)
        · exact fun hall i x y hx hy => hall (i + 1) x y (by simpa using hx) (by simpa using hy)

/-- C127. Sequences are close if and only if they have the same length and all their elements are close, relative to the elements of the second sequence. -/
theorem _root_.Aleph.C127_allclose (l m : List ℝ) (rtol atol : ℝ) :
    allclose l m rtol atol = true ↔ l.length = m.length ∧
      ∀ (i : ℕ) (a b : ℝ), l[i]? = some a → m[i]? = some b → |a - b| ≤ atol + rtol * |b| := by
  simp only [allclose]
  by_cases h : l.length = m.length
  · simp only [h, ne_eq, not_true_eq_false, if_false, true_and]
    exact allcloseLoop_iff rtol atol l m
  · simp [h]

/-- C127. The comparison is reflexive, but not symmetric. -/
theorem _root_.Aleph.C127_allclose_symmetry : (∀ (l : List ℝ) (rtol atol : ℝ), 0 ≤ rtol → 0 ≤ atol → allclose l l rtol atol = true) ∧
    (∃ (l m : List ℝ) (rtol atol : ℝ), 0 < rtol ∧ 0 < atol ∧ allclose l m rtol atol = true ∧ allclose m l rtol atol = false) := by
  constructor
  · intro l rtol atol h1 h2
    rw [C127_allclose]
    refine ⟨rfl, fun i a b ha hb => ?_⟩
    rw [ha] at hb
    obtain rfl := Option.some.inj hb
    rw [sub_self, abs_zero]
    positivity
  · refine ⟨[1], [2], 1 / 2, 1 / 4, by norm_num, by norm_num, ?_, ?_⟩
    · norm_num [allclose, allcloseLoop]
    · norm_num [allclose, allcloseLoop]

/-- C127. The checks of values throw an exception if and only if the value is out of bounds. -/
theorem _root_.Aleph.C127_bounds {T : Type} [LinearOrder T] (x lower upper : T) :
    (ensureRange x lower upper = none ↔ ¬ (lower ≤ x ∧ x ≤ upper)) ∧ (ensureLarger x lower = none ↔ ¬ lower < x) := by
  constructor
  · simp only [ensureRange]
    by_cases h1 : lower ≤ x <;> by_cases h2 : x ≤ upper <;> simp [h1, h2]
  · simp only [ensureLarger]
    by_cases h1 : lower < x <;> simp [h1]

example : add [1, 2] [(3 : ℤ), 4] = some [4, 6] ∧ add [1, 2] [(3 : ℤ)] = none ∧ scale (fun n : ℕ => (n : ℤ)) 3 [1, 2] = [3, 6] := by decide

end Aleph.Utilities
