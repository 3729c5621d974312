import Verif.Lemmas.Options
import Verif.Model.RandomGraphExample
import Verif.Props.GmlWriter
import Verif.Props.RandomGraph
import Verif.Spec.RandomGraphExample
import Mathlib.Algebra.Order.Field.Rat

/-!
# C173: the example `create_random_graph`
-/

namespace Aleph.RandomGraphExample

open Finset Spec Gml Pajek

variable {β : Type} [Field β]

/-- The argument of an option for the number of vertices. -/
def Opt.cardinalityWord : Opt → Option (List Char)
  | .cardinality w => some w
  | _ => none

/-- The argument of an option for the probability. -/
def Opt.probabilityWord : Opt → Option (List Char)
  | .probability w => some w
  | _ => none

theorem settings_iff (c : Context β) {opts : List Opt} {s : Settings β} (h : settings c opts = some s) :
    IsLastValue Opt.cardinalityWord c.stoul 100 opts s.n ∧ IsLastValue Opt.probabilityWord c.stod (1 / 4) opts s.p ∧ (s.weighted = true ↔ Opt.weighted ∈ opts) := by
  unfold settings at h
  refine ⟨?_, ?_, ?_⟩
  · refine lastValue_of_foldlM (get := Settings.n) ?_ ?_ h
    · intro s o s' w hp h
      cases o <;> simp only [Opt.cardinalityWord, Option.some.injEq, reduceCtorEq] at hp
      subst hp
      obtain ⟨x, h1, rfl⟩ := Option.map_eq_some_iff.1 h
      exact h1
    · intro s o s' hp h
      cases o <;> simp only [Opt.cardinalityWord, reduceCtorEq, setOption, Option.map_eq_some_iff, Option.some.injEq] at hp h
      · obtain ⟨x, h1, rfl⟩ := h; rfl
      · rw [← h]
      · rw [← h]
  · refine lastValue_of_foldlM (get := Settings.p) ?_ ?_ h
    · intro s o s' w hp h
      cases o <;> simp only [Opt.probabilityWord, Option.some.injEq, reduceCtorEq] at hp
      subst hp
      obtain ⟨x, h1, rfl⟩ := Option.map_eq_some_iff.1 h
      exact h1
    · intro s o s' hp h
      cases o <;> simp only [Opt.probabilityWord, reduceCtorEq, setOption, Option.map_eq_some_iff, Option.some.injEq] at hp h
      · obtain ⟨x, h1, rfl⟩ := h; rfl
      · rw [← h]
      · rw [← h]
  · have key : ∀ (opts : List Opt) (init s : Settings β), opts.foldlM (setOption c) init = some s → (s.weighted = true ↔ init.weighted = true ∨ Opt.weighted ∈ opts) := by
      intro opts
      induction opts with
      | nil =>
        intro init s h
        simp only [List.foldlM_nil, pure, Option.some.injEq] at h
        simp [h]
      | cons o l ih =>
        intro init s h
        simp only [List.foldlM_cons, Option.bind_eq_bind, Option.bind_eq_some_iff] at h
        obtain ⟨t, h1, h2⟩ := h
        rw [ih t s h2]
        cases o <;> simp only [setOption, Option.map_eq_some_iff, Option.some.injEq] at h1
        · obtain ⟨x, -, rfl⟩ := h1; simp
        · obtain ⟨x, -, rfl⟩ := h1; simp
        · subst h1; simp
        · subst h1; simp
    rw [key _ _ _ h]
    simp

theorem settings_none (c : Context β) (opts : List Opt) :
    settings c opts = none ↔ (∃ w, Opt.cardinality w ∈ opts ∧ c.stoul w = none) ∨ ∃ w, Opt.probability w ∈ opts ∧ c.stod w = none := by
  unfold settings
  generalize (⟨1 / 4, 100, false⟩ : Settings β) = init
  induction opts generalizing init with
  | nil => simp
  | cons o l ih =>
    rw [List.foldlM_cons]
    cases o with
    | cardinality w =>
      cases h : c.stoul w with
      | none => simp [setOption, h]
      | some n => simp [setOption, h, ih]
    | probability w =>
      cases h : c.stod w with
      | none => simp [setOption, h]
      | some n => simp [setOption, h, ih]
    | weighted => simp [setOption, ih]
    | unknown => simp [setOption, ih]

theorem vset_card {α : Type} {K : Complex α} (hK : WF K) {s : Simplex α} (hs : s ∈ K) : #s.vset = s.vertices.length :=
  (hK.normal s hs).length_eq.symm

/-- A graph that is written can be read again. -/
theorem store_spec {α : Type} [Zero α] [NatCast α] {represent : α → List Char} {K : Complex α} {n : ℕ} (hK : IsGraphOn n K)
    (hr : ∀ s ∈ K, ∃ m : ℕ, s.data = m ∧ represent s.data = Utilities.decimal m) (weight : ℕ → ℕ → Option α)
    (hw : ∀ u v w, u < v → v < n → (HasData K {u, v} w ↔ weight u v = some w)) : ∃ text, storeGraph represent K = .ok text ∧ IsGraphText n weight text := by
  cases ht : GmlWriter.write {} represent K with
  | none =>
    rcases (C135_exception {} represent K).1 ht with ⟨s, hs, h⟩ | ⟨h, -⟩
    · exact absurd h (hK.wf.nonempty s hs)
    · exact absurd rfl h
  | some text =>
    refine ⟨text, by unfold storeGraph; rw [ht], ?_⟩
    intro number convert f hnum hconv
    obtain ⟨st, hst⟩ := C135_read_partial (number := number) (convert := convert) (f := f) hnum {} represent (by simp) hK.wf
      (fun s hs => by
        obtain ⟨m, -, e⟩ := hr s hs
        rw [e]
        exact GmlWriter.decimal_token m)
      (fun s hs _ => by
        obtain ⟨m, e1, e⟩ := hr s hs
        rw [e]
        exact ⟨GmlWriter.decimal_value m, by rw [e1]; exact hconv _ _ (GmlWriter.decimal_numeral m).1⟩) ht
    refine ⟨st, _, hst, ?_, ?_⟩
    · have hhas : ∀ t, Has (((K.filter fun s => s.vertices.length = 1).map fun s => (⟨s.vertices, 0⟩ : Simplex α)) ++ K.filter fun s => s.vertices.length = 2) t ↔ Has K t := by
        intro t
        constructor
        · rintro ⟨s, hs, rfl⟩
          rcases List.mem_append.1 hs with h | h
          · obtain ⟨r, hr, rfl⟩ := List.mem_map.1 h
            exact ⟨r, (List.mem_filter.1 hr).1, rfl⟩
          · exact ⟨s, (List.mem_filter.1 h).1, rfl⟩
        · rintro ⟨s, hs, rfl⟩
          have h1 := hK.dimension s hs
          have h2 := (hK.wf.vset_nonempty hs).card_pos
          rw [vset_card hK.wf hs] at h1 h2
          rcases (show s.vertices.length = 1 ∨ s.vertices.length = 2 by omega) with h | h
          · exact ⟨⟨s.vertices, 0⟩, List.mem_append_left _ (List.mem_map.2 ⟨s, List.mem_filter.2 ⟨hs, by simpa using h⟩, rfl⟩), rfl⟩
          · exact ⟨s, List.mem_append_right _ (List.mem_filter.2 ⟨hs, by simpa using h⟩), rfl⟩
      have hmem : ∀ s ∈ (((K.filter fun s => s.vertices.length = 1).map fun s => (⟨s.vertices, 0⟩ : Simplex α)) ++ K.filter fun s => s.vertices.length = 2), ∃ r ∈ K, r.vertices = s.vertices := by
        intro s hs
        rcases List.mem_append.1 hs with h | h
        · obtain ⟨r, hr, rfl⟩ := List.mem_map.1 h
          exact ⟨r, (List.mem_filter.1 hr).1, rfl⟩
        · exact ⟨s, (List.mem_filter.1 h).1, rfl⟩
      have hwf : WF (((K.filter fun s => s.vertices.length = 1).map fun s => (⟨s.vertices, 0⟩ : Simplex α)) ++ K.filter fun s => s.vertices.length = 2) := by
        refine ⟨?_, ?_, ?_⟩
        · intro s hs
          obtain ⟨r, hr, e⟩ := hmem s hs
          rw [← e]
          exact hK.wf.normal r hr
        · intro s hs
          obtain ⟨r, hr, e⟩ := hmem s hs
          rw [← e]
          exact hK.wf.nonempty r hr
        · rw [List.map_append, List.map_map]
          have hsub : ∀ q : Simplex α → Bool, ((K.filter q).map (·.vertices)).Nodup := fun q => hK.wf.distinct.sublist (List.filter_sublist.map _)
          refine List.Nodup.append (hsub _) (hsub _) ?_
          intro x hx hy
          obtain ⟨a, ha, rfl⟩ := List.mem_map.1 hx
          obtain ⟨b, hb, e⟩ := List.mem_map.1 hy
          have h1 := (List.mem_filter.1 ha).2
          have h2 := (List.mem_filter.1 hb).2
          simp only [decide_eq_true_eq, Function.comp] at h1 h2 e
          rw [e] at h2
          omega
      refine ⟨hwf, ?_, ?_, ?_, ?_⟩
      · intro s hs t hts htne
        obtain ⟨r, hr, e⟩ := (hhas s.vset).1 ⟨s, hs, rfl⟩
        exact (hhas t).2 (hK.closed r hr t (by rw [e]; exact hts) htne)
      · have hcard : ∀ s ∈ (((K.filter fun s => s.vertices.length = 1).map fun s => (⟨s.vertices, 0⟩ : Simplex α)) ++ K.filter fun s => s.vertices.length = 2), #s.vset = s.vertices.length :=
          fun s hs => vset_card hwf hs
        refine List.pairwise_append.2 ⟨?_, ?_, ?_⟩
        · refine List.Pairwise.imp_of_mem (R := fun _ _ => True) ?_ (List.pairwise_of_forall fun _ _ => trivial)
          intro a b ha hb _ hlt
          have := card_lt_card hlt
          rw [hcard a (List.mem_append_left _ ha), hcard b (List.mem_append_left _ hb)] at this
          obtain ⟨r, hr, rfl⟩ := List.mem_map.1 ha
          obtain ⟨q, hq, rfl⟩ := List.mem_map.1 hb
          have h1 := (List.mem_filter.1 hr).2
          have h2 := (List.mem_filter.1 hq).2
          simp only [decide_eq_true_eq] at h1 h2 this
          omega
        · refine List.Pairwise.imp_of_mem (R := fun _ _ => True) ?_ (List.pairwise_of_forall fun _ _ => trivial)
          intro a b ha hb _ hlt
          have := card_lt_card hlt
          rw [hcard a (List.mem_append_right _ ha), hcard b (List.mem_append_right _ hb)] at this
          have h1 := (List.mem_filter.1 ha).2
          have h2 := (List.mem_filter.1 hb).2
          simp only [decide_eq_true_eq] at h1 h2
          omega
        · intro a ha b hb hlt
          have := card_lt_card hlt
          rw [hcard a (List.mem_append_left _ ha), hcard b (List.mem_append_right _ hb)] at this
          obtain ⟨r, hr, rfl⟩ := List.mem_map.1 ha
          have h1 := (List.mem_filter.1 hr).2
          have h2 := (List.mem_filter.1 hb).2
          simp only [decide_eq_true_eq] at h1 h2 this
          omega
      · intro s hs
        obtain ⟨r, hr, e⟩ := hmem s hs
        rw [show s.vset = r.vset by unfold Simplex.vset; rw [e]]
        exact hK.dimension r hr
      · intro v
        rw [hhas]
        exact hK.vertices v
    · intro u v w huv hv
      rw [← hw u v w huv hv]
      constructor
      · rintro ⟨s, hs, h1, h2⟩
        rcases List.mem_append.1 hs with h | h
        · exfalso
          obtain ⟨r, hr, rfl⟩ := List.mem_map.1 h
          have h3 := (List.mem_filter.1 hr).2
          simp only [decide_eq_true_eq] at h3
          have h4 : #r.vset = 1 := by rw [vset_card hK.wf (List.mem_filter.1 hr).1, h3]
          rw [show r.vset = {u, v} from h1, card_pair huv.ne] at h4
          omega
        · exact ⟨s, (List.mem_filter.1 h).1, h1, h2⟩
      · rintro ⟨s, hs, h1, h2⟩
        refine ⟨s, List.mem_append_right _ (List.mem_filter.2 ⟨hs, ?_⟩), h1, h2⟩
        rw [decide_eq_true_eq, ← vset_card hK.wf hs, h1, card_pair huv.ne]

/-- The arguments of all options are numbers. -/
def _root_.Aleph.Spec.ValidOptions (c : Context β) (opts : List Opt) : Prop :=
  (∀ w, Opt.cardinality w ∈ opts → c.stoul w ≠ none) ∧ ∀ w, Opt.probability w ∈ opts → c.stod w ≠ none

theorem settings_valid (c : Context β) {opts : List Opt} (h : ValidOptions c opts) : ∃ s, settings c opts = some s := by
  cases hs : settings c opts with
  | some s => exact ⟨s, rfl⟩
  | none =>
    rcases (settings_none c opts).1 hs with ⟨w, h1, h2⟩ | ⟨w, h1, h2⟩
    · exact absurd h2 (h.1 w h1)
    · exact absurd h2 (h.2 w h1)

variable [LinearOrder β]

/-- C173. Without the option for weights, the program writes a graph in GML format.  Its number of vertices and the probability are those of the last options that specify them, by default 100 and 0.25.
For each pair of vertices, a random number of its own decides, by comparison with the probability, whether there is an edge; different pairs have different random numbers by `C88_erdos_renyi`. -/
theorem _root_.Aleph.C173_unweighted (c : Context β) (draw : ℕ → β) (fuel : ℕ) (opts : List Opt) (hv : ValidOptions c opts) (hw : Opt.weighted ∉ opts) :
    ∃ n p text, IsLastValue Opt.cardinalityWord c.stoul 100 opts n ∧ IsLastValue Opt.probabilityWord c.stod (1 / 4) opts p ∧ main c draw fuel opts = .ok text ∧
      IsGraphText n (fun u v => if draw (pairRank n u v) < p then some (0 : ℤ) else none) text := by
  obtain ⟨s, hs⟩ := settings_valid c hv
  obtain ⟨h1, h2, h3⟩ := settings_iff c hs
  obtain ⟨g1, g2, g3, -⟩ := C88_erdos_renyi draw s.n s.p
  obtain ⟨text, t1, t2⟩ := store_spec (represent := printShort) g1 (fun t ht => ⟨0, by simp [g3 t ht], by rw [g3 t ht]; rfl⟩)
    (fun u v => if draw (pairRank s.n u v) < s.p then some (0 : ℤ) else none) (by
      intro u v w huv hv
      constructor
      · rintro ⟨t, ht, e1, e2⟩
        rw [if_pos ((g2 u v huv hv).1 ⟨t, ht, e1⟩), ← e2, g3 t ht]
      · intro h
        split at h
        · next hlt =>
          obtain ⟨t, ht, e1⟩ := (g2 u v huv hv).2 hlt
          exact ⟨t, ht, e1, by rw [g3 t ht]; exact Option.some.inj h⟩
        · cases h)
  refine ⟨s.n, s.p, text, h1, h2, ?_, t2⟩
  unfold main
  simp only [hs]
  rw [if_neg fun h => hw (h3.1 h), t1]

/-- C173. With the option for weights, the weight of an edge is the number of random numbers below the probability until the next one that is not; there is no edge if it is zero.  The program ends if
the sequence contains infinitely many numbers that are not below the probability. -/
theorem _root_.Aleph.C173_weighted (c : Context β) (draw : ℕ → β) (opts : List Opt) (hv : ValidOptions c opts) (hw : Opt.weighted ∈ opts) :
    ∃ n p, IsLastValue Opt.cardinalityWord c.stoul 100 opts n ∧ IsLastValue Opt.probabilityWord c.stod (1 / 4) opts p ∧
      ∀ f, IsFailureSequence draw p f → ∃ text fuel₀, (∀ fuel ≥ fuel₀, main c draw fuel opts = .ok text) ∧
        IsGraphText n (fun u v => if successes f (pairRank n u v) ≠ 0 then some (successes f (pairRank n u v)) else none) text := by
  obtain ⟨s, hs⟩ := settings_valid c hv
  obtain ⟨h1, h2, h3⟩ := settings_iff c hs
  refine ⟨s.n, s.p, h1, h2, fun f hf => ?_⟩
  obtain ⟨K, ⟨fuel₀, k1⟩, k2, k3, k4, -⟩ := C88_weighted draw s.n s.p f hf
  obtain ⟨text, t1, t2⟩ := store_spec (represent := Utilities.decimal) k2 (fun t _ => ⟨t.data, by simp, rfl⟩)
    (fun u v => if successes f (pairRank s.n u v) ≠ 0 then some (successes f (pairRank s.n u v)) else none) (by
      intro u v w huv hv
      rw [k4 u v w huv hv]
      constructor
      · rintro ⟨rfl, h⟩
        rw [if_pos h]
      · intro h
        split at h
        · next hne =>
          obtain rfl := Option.some.inj h
          exact ⟨rfl, hne⟩
        · cases h)
  refine ⟨text, fuel₀, fun fuel hfuel => ?_, t2⟩
  unfold main
  simp only [hs]
  rw [if_pos (h3.2 hw), k1 fuel hfuel]
  exact t1

/-- C173. With the option for weights, the program does not end if all random numbers are below the probability, for instance if it is larger than all of them. -/
theorem _root_.Aleph.C173_divergence (c : Context β) (draw : ℕ → β) (opts : List Opt) (hv : ValidOptions c opts) (hw : Opt.weighted ∈ opts) (hd : ∀ p t, IsLastValue Opt.probabilityWord c.stod (1 / 4) opts p → draw t < p)
    (hn : ∀ n, IsLastValue Opt.cardinalityWord c.stoul 100 opts n → 2 ≤ n) (fuel : ℕ) : main c draw fuel opts = .error .fuel := by
  obtain ⟨s, hs⟩ := settings_valid c hv
  obtain ⟨h1, h2, h3⟩ := settings_iff c hs
  unfold main
  simp only [hs]
  rw [if_pos (h3.2 hw), C88_divergence draw s.n (hn _ h1) s.p (fun t => hd _ t h2)]

/-- C173. Arguments of options that are not numbers raise an exception. -/
theorem _root_.Aleph.C173_exception (c : Context β) (draw : ℕ → β) (fuel : ℕ) (opts : List Opt) (hv : ¬ ValidOptions c opts) : main c draw fuel opts = .error .exception := by
  have : settings c opts = none := by
    rw [settings_none]
    by_contra h
    exact hv ⟨fun w h1 h2 => h (Or.inl ⟨w, h1, h2⟩), fun w h1 h2 => h (Or.inr ⟨w, h1, h2⟩)⟩
  unfold main
  simp only [this]

/-! ### Examples -/

/-- Conversions for the examples. -/
def exampleContext : Context ℚ := ⟨fun w => if w = "3".toList then some 3 else none, fun w => if w = "0.5".toList then some (1 / 2) else none⟩

/-- Hypotheses of C173: a graph with three vertices and two edges. -/
example : ValidOptions exampleContext [.cardinality "3".toList, .probability "0.5".toList] ∧
    main exampleContext (fun t => if t = 1 then 3 / 4 else 1 / 4) 9 [.cardinality "3".toList, .probability "0.5".toList] =
      .ok "graph [\n  directed 0\n  node [\n    id 0\n  ]\n  node [\n    id 1\n  ]\n  node [\n    id 2\n  ]\n\n  edge [\n    source 1\n    target 0\n    weight 0\n  ]\n  edge [\n    source 2\n    target 1\n    weight 0\n  ]\n\n]\n".toList := by
  refine ⟨⟨?_, ?_⟩, ?_⟩
  · intro w hw
    simp only [List.mem_cons, Opt.cardinality.injEq, reduceCtorEq, List.not_mem_nil, or_false] at hw
    subst hw
    decide
  · intro w hw
    simp only [List.mem_cons, Opt.probability.injEq, reduceCtorEq, List.not_mem_nil, or_false, false_or] at hw
    subst hw
    decide
  · decide +kernel

/-- Hypotheses of C173_weighted: failures at every second position. -/
example : IsFailureSequence (fun t => if t % 2 = 1 then (3 / 4 : ℚ) else 1 / 8) (1 / 4) (fun k => 2 * k + 1) := by
  refine ⟨fun a b h => by simp only; omega, fun t => ?_⟩
  constructor
  · rintro ⟨k, rfl⟩
    beta_reduce
    rw [if_pos (by omega)]
    norm_num
  · intro h
    beta_reduce at h ⊢
    by_cases h2 : t % 2 = 1
    · exact ⟨t / 2, by omega⟩
    · rw [if_neg h2] at h
      norm_num at h

end Aleph.RandomGraphExample
