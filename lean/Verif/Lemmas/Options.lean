import Verif.Spec.Options
import Mathlib.Data.List.Basic
import Mathlib.Data.List.Induction

/-!
# Options of programs
-/

namespace Aleph

open Spec

/-- If each step of a loop sets a parameter or preserves it, then the last option that sets it determines its value. -/
theorem lastValue_of_foldlM {Opt σ β : Type} {step : σ → Opt → Option σ} {get : σ → β} {pick : Opt → Option (List Char)} {conv : List Char → Option β}
    (hset : ∀ s o s' w, pick o = some w → step s o = some s' → conv w = some (get s')) (hkeep : ∀ s o s', pick o = none → step s o = some s' → get s' = get s)
    {init s : σ} {opts : List Opt} (h : opts.foldlM step init = some s) : IsLastValue pick conv (get init) opts (get s) := by
  induction opts using List.reverseRecOn generalizing s with
  | nil =>
    simp only [List.foldlM_nil, pure, Option.some.injEq] at h
    exact Or.inr ⟨by simp, by rw [h]⟩
  | append_singleton l o ih =>
    rw [List.foldlM_append] at h
    cases e : l.foldlM step init with
    | none =>
      rw [e] at h
      simp at h
    | some t =>
      rw [e] at h
      simp only [Option.bind_eq_bind, Option.bind_some, List.foldlM_cons, List.foldlM_nil, Option.bind_eq_some_iff] at h
      obtain ⟨s', h, h'⟩ := h
      simp only [pure, Option.some.injEq] at h'
      subst h'
      cases hp : pick o with
      | some w => exact Or.inl ⟨l, o, [], w, rfl, hp, by simp, hset t o s' w hp h⟩
      | none =>
        rw [hkeep t o s' hp h]
        rcases ih e with ⟨before, o', after, w, h1, h2, h3, h4⟩ | ⟨h1, h2⟩
        · refine Or.inl ⟨before, o', after ++ [o], w, by rw [h1]; simp, h2, ?_, h4⟩
          intro o'' ho
          rcases List.mem_append.1 ho with ho | ho
          · exact h3 o'' ho
          · rw [List.mem_singleton] at ho
            rw [ho, hp]
        · refine Or.inr ⟨?_, h2⟩
          intro o'' ho
          rcases List.mem_append.1 ho with ho | ho
          · exact h1 o'' ho
          · rw [List.mem_singleton] at ho
            rw [ho, hp]

/-- A loop over all options fails if and only if one of its steps fails, provided that this depends on the option only. -/
theorem foldlM_eq_none {Opt σ : Type} {step : σ → Opt → Option σ} {bad : Opt → Prop} (hbad : ∀ s o, step s o = none ↔ bad o) (init : σ) (opts : List Opt) :
    opts.foldlM step init = none ↔ ∃ o ∈ opts, bad o := by
  induction opts generalizing init with
  | nil => simp [pure]
  | cons o l ih =>
    rw [List.foldlM_cons]
    cases e : step init o with
    | none => simp [(hbad init o).1 e]
    | some t =>
      have : ¬bad o := fun hb => by
        rw [(hbad init o).2 hb] at e
        cases e
      simp [ih, this]

end Aleph
