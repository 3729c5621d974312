import Verif.Spec.UnionFind
import Mathlib.Data.Finset.Card
import Mathlib.Data.Finset.Range
import Mathlib.Data.List.Nodup
import Mathlib.Tactic.Tauto

namespace Aleph

open Aleph.Spec

namespace ParentMap

theorem at?_cons (e : ℕ × ℕ) (p : ParentMap) (u : ℕ) :
    at? (e :: p) u = if e.1 = u then some e.2 else at? p u := by
  unfold at?
  by_cases h : e.1 = u <;> simp [h]

theorem at?_append (p q : ParentMap) (u : ℕ) : at? (p ++ q) u = (at? p u).or (at? q u) := by
  induction p with
  | nil => rfl
  | cons e p ih =>
    rw [List.cons_append, at?_cons, at?_cons, ih]
    split <;> rfl

theorem at?_isSome {p : ParentMap} {u : ℕ} : (at? p u).isSome ↔ u ∈ p.map (·.1) := by
  induction p with
  | nil => simp [at?]
  | cons e p ih =>
    rw [at?_cons]
    by_cases h : e.1 = u
    · simp [h]
    · rw [if_neg h, ih, List.map_cons, List.mem_cons]
      constructor
      · exact Or.inr
      · rintro (h' | h')
        · exact absurd h'.symm h
        · exact h'

theorem at?_map (p : ParentMap) (u v x : ℕ) :
    at? (p.map fun e => if e.1 = u then (u, v) else e) x =
      if x = u ∧ (at? p u).isSome then some v else at? p x := by
  induction p with
  | nil => simp [at?]
  | cons e p ih =>
    rw [List.map_cons, at?_cons, ih, at?_cons, at?_cons]
    by_cases h : e.1 = u
    · by_cases hx : x = u
      · simp [h, hx]
      · simp [h, hx, Ne.symm hx]
    · by_cases hx : x = u
      · subst hx; simp [h]
      · simp [h, hx]

theorem at?_assign (p : ParentMap) (u v x : ℕ) :
    at? (assign p u v) x = if x = u then some v else at? p x := by
  unfold assign
  split
  · next h =>
    rw [at?_map]
    simp [h]
  · next h =>
    rw [at?_append, at?_cons]
    rw [Bool.not_eq_true, Option.isSome_eq_false_iff, Option.isNone_iff_eq_none] at h
    by_cases hx : x = u
    · subst hx; simp [h]
    · simp [hx, Ne.symm hx, at?]

theorem keys_assign_of_mem {p : ParentMap} {u v : ℕ} (h : u ∈ p.map (·.1)) :
    (assign p u v).map (·.1) = p.map (·.1) := by
  unfold assign
  rw [if_pos (at?_isSome.2 h), List.map_map]
  apply List.map_congr_left
  intro e _
  simp only [Function.comp]
  split
  · next h => exact h.symm
  · rfl

/-- `r` is reached from `u` by `n` parent steps and is its own parent. -/
inductive Root (p : ParentMap) : ℕ → ℕ → ℕ → Prop
  | self {u : ℕ} (h : at? p u = some u) : Root p u u 0
  | step {u w r n : ℕ} (h : at? p u = some w) (hne : w ≠ u) (hr : Root p w r n) : Root p u r (n + 1)

theorem Root.det {p : ParentMap} {u r n r' n' : ℕ} (h : Root p u r n) (h' : Root p u r' n') :
    r = r' ∧ n = n' := by
  induction h generalizing r' n' with
  | self h =>
    cases h' with
    | self h' => exact ⟨rfl, rfl⟩
    | step h' hne _ => rw [h] at h'; exact absurd (Option.some.inj h').symm hne
  | step h hne _ ih =>
    cases h' with
    | self h' => rw [h] at h'; exact absurd (Option.some.inj h') hne
    | step h' _ hr' =>
      rw [h] at h'
      cases Option.some.inj h'
      obtain ⟨h1, h2⟩ := ih hr'
      exact ⟨h1, by rw [h2]⟩

theorem Root.mem {p : ParentMap} {u r n : ℕ} (h : Root p u r n) : u ∈ p.map (·.1) := by
  cases h with
  | self h => exact at?_isSome.1 (by rw [h]; rfl)
  | step h => exact at?_isSome.1 (by rw [h]; rfl)

theorem Root.root {p : ParentMap} {u r n : ℕ} (h : Root p u r n) : at? p r = some r := by
  induction h with
  | self h => exact h
  | step _ _ _ ih => exact ih

theorem Root.depth {p : ParentMap} {u r n : ℕ} (h : Root p u r n) :
    ∀ m ≤ n, ∃ x r', Root p x r' m := by
  induction h with
  | self h =>
    intro m hm
    cases Nat.le_zero.1 hm
    exact ⟨_, _, .self h⟩
  | @step u w r k h hne hr ih =>
    intro m hm
    rcases Nat.lt_or_ge m (k + 1) with hlt | hge
    · exact ih m (by omega)
    · have : m = k + 1 := le_antisymm hm hge
      subst this
      exact ⟨_, _, .step h hne hr⟩

theorem Root.lt_length {p : ParentMap} {u r n : ℕ} (h : Root p u r n) : n < p.length := by
  classical
  have hd := h.depth
  choose! f g hfg using hd
  have : (Finset.range (n + 1)).card ≤ (p.map (·.1)).toFinset.card := by
    refine Finset.card_le_card_of_injOn f ?_ ?_
    · intro m hm
      rw [Finset.mem_coe, List.mem_toFinset]
      exact (hfg m (by simpa [Nat.lt_succ_iff] using hm)).mem
    · intro a ha b hb hab
      have h1 := hfg a (by simpa [Nat.lt_succ_iff] using ha)
      have h2 := hfg b (by simpa [Nat.lt_succ_iff] using hb)
      rw [hab] at h1
      exact (h1.det h2).2
  have h2 := List.toFinset_card_le (p.map (·.1))
  rw [Finset.card_range] at this
  rw [List.length_map] at h2
  omega

/-- Redirecting a vertex to its root does not change roots. -/
theorem Root.compress {p : ParentMap} {u r n : ℕ} (h : Root p u r n) {x s m : ℕ}
    (hx : Root p x s m) : ∃ m', Root (assign p u r) x s m' := by
  have hroot : ∀ {y : ℕ}, at? p y = some y → at? (assign p u r) y = some y := by
    intro y hy
    rw [at?_assign]
    split
    · next hyu =>
      subst hyu
      rw [((Root.self hy).det h).1]
    · exact hy
  induction hx with
  | self hx => exact ⟨0, .self (hroot hx)⟩
  | @step x w s k hx hne hw ih =>
    by_cases hxu : x = u
    · subst hxu
      obtain ⟨h1, h2⟩ := (Root.step hx hne hw).det h
      subst h1
      by_cases hsx : s = x
      · subst hsx
        exact ⟨0, .self (hroot h.root)⟩
      · exact ⟨1, .step (by rw [at?_assign, if_pos rfl]) hsx (.self (hroot h.root))⟩
    · obtain ⟨m', hm'⟩ := ih
      exact ⟨m' + 1, .step (by rw [at?_assign, if_neg hxu]; exact hx) hne hm'⟩

/-- Directing a root to another root. -/
theorem Root.link {p : ParentMap} {a b : ℕ} (ha : at? p a = some a) (hb : at? p b = some b)
    {x s m : ℕ} (hx : Root p x s m) :
    ∃ m', Root (assign p a b) x (if s = a then b else s) m' := by
  by_cases hab : a = b
  · subst hab
    obtain ⟨m', h⟩ := Root.compress (Root.self ha) hx
    refine ⟨m', ?_⟩
    split
    · next h' => subst h'; exact h
    · exact h
  · have hbb : Root (assign p a b) b b 0 := .self (by rw [at?_assign, if_neg (Ne.symm hab)]; exact hb)
    induction hx with
    | @self x hx =>
      by_cases hxa : x = a
      · subst hxa
        rw [if_pos rfl]
        exact ⟨1, .step (by rw [at?_assign, if_pos rfl]) (Ne.symm hab) hbb⟩
      · rw [if_neg hxa]
        exact ⟨0, .self (by rw [at?_assign, if_neg hxa]; exact hx)⟩
    | @step x w s k hx hne hw ih =>
      obtain ⟨m', hm'⟩ := ih
      have hxa : x ≠ a := by
        rintro rfl
        rw [ha] at hx
        exact hne (Option.some.inj hx).symm
      exact ⟨m' + 1, .step (by rw [at?_assign, if_neg hxa]; exact hx) hne hm'⟩

/-- The state stores the elements of `V`, with representatives `rep`. -/
structure Represents (V : ℕ → Prop) (p : ParentMap) (rep : ℕ → ℕ) : Prop where
  nodup : (p.map (·.1)).Nodup
  keys : ∀ u, u ∈ p.map (·.1) ↔ V u
  root : ∀ u, V u → ∃ n, Root p u (rep u) n

variable {V : ℕ → Prop} {p : ParentMap} {rep : ℕ → ℕ}

theorem Represents.rep_mem (h : Represents V p rep) {u : ℕ} (hu : V u) : V (rep u) := by
  obtain ⟨n, hn⟩ := h.root u hu
  exact (h.keys _).1 (Root.self hn.root).mem

theorem Represents.rep_rep (h : Represents V p rep) {u : ℕ} (hu : V u) : rep (rep u) = rep u := by
  obtain ⟨n, hn⟩ := h.root u hu
  obtain ⟨m, hm⟩ := h.root _ (h.rep_mem hu)
  exact (hm.det (Root.self hn.root)).1

theorem findAux_spec {u r n : ℕ} (hr : Root p u r n)
    (f : ℕ) (hf : n < f) :
    ∃ p', findAux f p u = some (p', r) ∧ p'.map (·.1) = p.map (·.1) ∧
      ∀ x s m, Root p x s m → ∃ m', Root p' x s m' := by
  induction hr generalizing f with
  | self h =>
    obtain ⟨f, rfl⟩ := Nat.exists_eq_succ_of_ne_zero (by omega : f ≠ 0)
    refine ⟨p, ?_, rfl, fun x s m hx => ⟨m, hx⟩⟩
    simp [findAux, h]
  | @step u w r k h hne hw ih =>
    obtain ⟨f, rfl⟩ := Nat.exists_eq_succ_of_ne_zero (by omega : f ≠ 0)
    obtain ⟨p', h1, h2, h3⟩ := ih f (by omega)
    obtain ⟨m0, hm0⟩ := h3 _ _ _ (Root.step h hne hw)
    refine ⟨p'.assign u r, ?_, ?_, ?_⟩
    · simp only [findAux, h, if_neg hne, h1, at?_assign, if_true]
    · rw [keys_assign_of_mem hm0.mem, h2]
    · intro x s m hx
      obtain ⟨m', hm'⟩ := h3 _ _ _ hx
      exact hm0.compress hm'

theorem Represents.find (h : Represents V p rep) {u : ℕ} (hu : V u) :
    ∃ p', p.find u = some (p', rep u) ∧ Represents V p' rep := by
  obtain ⟨n, hn⟩ := h.root u hu
  obtain ⟨p', h1, h2, h3⟩ := findAux_spec hn
    (p.length + 1) (by have := hn.lt_length; omega)
  refine ⟨p', h1, ⟨by rw [h2]; exact h.nodup, by rw [h2]; exact h.keys, ?_⟩⟩
  intro x hx
  obtain ⟨m, hm⟩ := h.root x hx
  exact h3 _ _ _ hm

theorem Represents.find_none (h : Represents V p rep) {u : ℕ} (hu : ¬ V u) : p.find u = none := by
  have : at? p u = none := by
    rw [← Option.isNone_iff_eq_none, ← Option.isSome_eq_false_iff, ← Bool.not_eq_true, at?_isSome, h.keys]
    exact hu
  simp [ParentMap.find, findAux, this]

theorem Represents.link (h : Represents V p rep) {u v : ℕ} (hu : V u) (hv : V v) :
    Represents V (p.assign (rep u) (rep v)) fun x => if rep x = rep u then rep v else rep x := by
  obtain ⟨n, hn⟩ := h.root u hu
  obtain ⟨m, hm⟩ := h.root v hv
  have hk : (p.assign (rep u) (rep v)).map (·.1) = p.map (·.1) :=
    keys_assign_of_mem (Root.self hn.root).mem
  refine ⟨by rw [hk]; exact h.nodup, by rw [hk]; exact h.keys, ?_⟩
  intro x hx
  obtain ⟨k, hk⟩ := h.root x hx
  exact Root.link hn.root hm.root hk

theorem Represents.merge (h : Represents V p rep) (b : Bool) {u v : ℕ} (hu : V u) (hv : V v) :
    ∃ p', p.merge b u v = some p' ∧
      Represents V p' fun x => if rep x = rep u then rep v else rep x := by
  unfold ParentMap.merge
  by_cases huv : u = v
  · subst huv
    rw [if_pos rfl]
    refine ⟨p, rfl, ?_⟩
    convert h using 2 with x
    split
    · next h => exact h.symm
    · rfl
  · rw [if_neg huv]
    cases b with
    | true =>
      obtain ⟨p1, h1, r1⟩ := h.find hu
      obtain ⟨p2, h2, r2⟩ := r1.find hv
      simp only [if_true, h1, h2]
      exact ⟨_, rfl, r2.link hu hv⟩
    | false =>
      obtain ⟨p1, h1, r1⟩ := h.find hv
      obtain ⟨p2, h2, r2⟩ := r1.find hu
      simp only [Bool.false_eq_true, if_false, h1, h2]
      exact ⟨_, rfl, r2.link hu hv⟩

theorem Represents.merge_none (h : Represents V p rep) (b : Bool) {u v : ℕ} :
    p.merge b u v = none ↔ u ≠ v ∧ (¬ V u ∨ ¬ V v) := by
  constructor
  · intro hn
    by_contra hc
    by_cases huv : u = v
    · subst huv
      simp [ParentMap.merge] at hn
    · have : V u ∧ V v := by
        by_contra h'
        exact hc ⟨huv, by tauto⟩
      obtain ⟨p', hp', _⟩ := h.merge b this.1 this.2
      rw [hp'] at hn
      cases hn
  · rintro ⟨huv, hn⟩
    unfold ParentMap.merge
    rw [if_neg huv]
    cases b with
    | true =>
      simp only [if_true]
      by_cases hu : V u
      · obtain ⟨p1, h1, r1⟩ := h.find hu
        simp only [h1, r1.find_none (by tauto : ¬ V v)]
      · simp only [h.find_none hu]
    | false =>
      simp only [Bool.false_eq_true, if_false]
      by_cases hv : V v
      · obtain ⟨p1, h1, r1⟩ := h.find hv
        simp only [h1, r1.find_none (by tauto : ¬ V u)]
      · simp only [h.find_none hv]

theorem Represents.collect (cond : ℕ → ℕ → Bool) (us : List ℕ) (h : Represents V p rep)
    (hus : ∀ u ∈ us, V u) :
    ∃ p', p.collect cond us = some (p', us.filter fun u => cond u (rep u)) ∧ Represents V p' rep := by
  induction us generalizing p with
  | nil => exact ⟨p, rfl, h⟩
  | cons u us ih =>
    obtain ⟨p1, h1, r1⟩ := h.find (hus u List.mem_cons_self)
    obtain ⟨p2, h2, r2⟩ := ih r1 fun x hx => hus x (List.mem_cons_of_mem _ hx)
    refine ⟨p2, ?_, r2⟩
    simp only [ParentMap.collect, h1, h2, List.filter_cons]

theorem Represents.roots (h : Represents V p rep) :
    ∃ p' l, p.roots = some (p', l) ∧ Represents V p' rep ∧ l.Nodup ∧
      ∀ u, u ∈ l ↔ V u ∧ rep u = u := by
  obtain ⟨p', h1, h2⟩ := h.collect (fun u r => r == u) (p.map (·.1)) fun u hu => (h.keys u).1 hu
  refine ⟨p', _, h1, h2, h.nodup.filter _, ?_⟩
  intro u
  rw [List.mem_filter, h.keys, beq_iff_eq]

theorem Represents.get (h : Represents V p rep) {v : ℕ} (hv : V v) :
    ∃ p' l, p.get v = some (p', l) ∧ Represents V p' rep ∧ l.Nodup ∧
      ∀ u, u ∈ l ↔ V u ∧ rep u = rep v := by
  obtain ⟨p1, h1, r1⟩ := h.find hv
  obtain ⟨p', h2, h3⟩ := r1.collect (fun _ r => r == rep v) (p1.map (·.1)) fun u hu => (r1.keys u).1 hu
  refine ⟨p', (p1.map (·.1)).filter (fun u => rep u == rep v), ?_, h3, r1.nodup.filter _, ?_⟩
  · unfold ParentMap.get
    simp only [h1]
    exact h2
  · intro u
    rw [List.mem_filter, r1.keys, beq_iff_eq]

theorem Represents.ofRange (vs : List ℕ) : Represents (· ∈ vs) (ofRange vs) id := by
  have main : ∀ (vs : List ℕ) (p : ParentMap) (V : ℕ → Prop), Represents V p id →
      Represents (fun u => V u ∨ u ∈ vs) (vs.foldl (fun p v => assign p v v) p) id := by
    intro vs
    induction vs with
    | nil => intro p V h; simpa using h
    | cons v vs ih =>
      intro p V h
      have h1 : Represents (fun u => V u ∨ u = v) (assign p v v) id := by
        by_cases hv : V v
        · have hk := keys_assign_of_mem (v := v) ((h.keys v).2 hv)
          refine ⟨by rw [hk]; exact h.nodup, ?_, ?_⟩
          · intro u
            rw [hk, h.keys]
            exact ⟨Or.inl, fun h' => h'.elim id fun h' => h' ▸ hv⟩
          · intro u hu
            have hu' : V u := hu.elim id fun h' => h' ▸ hv
            obtain ⟨n, hn⟩ := h.root u hu'
            obtain ⟨m, hm⟩ := h.root v hv
            exact hm.compress hn
        · have hnk : v ∉ p.map (·.1) := fun hm => hv ((h.keys v).1 hm)
          have hn : ¬ (at? p v).isSome = true := fun hs => hnk (at?_isSome.1 hs)
          have he : assign p v v = p ++ [(v, v)] := by unfold assign; rw [if_neg hn]
          refine ⟨?_, ?_, ?_⟩
          · rw [he, List.map_append]
            refine List.nodup_append.2 ⟨h.nodup, by simp, ?_⟩
            intro a ha b hb
            simp at hb
            subst hb
            rintro rfl
            exact hnk ha
          · intro u
            rw [he, List.map_append, List.mem_append, h.keys]
            simp
          · intro u hu
            by_cases huv : u = v
            · subst huv
              exact ⟨0, .self (by rw [at?_assign, if_pos rfl])⟩
            · obtain ⟨n, hn⟩ := h.root u (hu.resolve_right huv)
              have := hn.root
              exact ⟨0, .self (by rw [at?_assign, if_neg huv]; exact this)⟩
      have h2 := ih (assign p v v) _ h1
      rw [List.foldl_cons]
      convert h2 using 1
      funext u
      simp only [List.mem_cons, eq_iff_iff]
      tauto
  have h0 : Represents (fun _ => False) ([] : ParentMap) id :=
    ⟨by simp, by simp, fun _ h => h.elim⟩
  have := main vs [] _ h0
  simp only [false_or] at this
  exact this

end ParentMap

namespace Spec

theorem repOf_connected (ms : List (ℕ × ℕ)) (x : ℕ) : Connected ms x (repOf ms x) := by
  have mono : ∀ {m : ℕ × ℕ} {ms : List (ℕ × ℕ)} {a b : ℕ}, Connected ms a b → Connected (m :: ms) a b :=
    fun h => Relation.EqvGen.mono (fun _ _ h => List.mem_cons_of_mem _ h) _ _ h
  induction ms generalizing x with
  | nil => exact .refl _
  | cons m ms ih =>
    unfold repOf
    split
    · next h =>
      have h1 : Connected (m :: ms) x (repOf ms x) := mono (ih x)
      rw [h] at h1
      have h2 : Connected (m :: ms) m.1 (repOf ms m.1) := mono (ih m.1)
      have h3 : Connected (m :: ms) m.2 (repOf ms m.2) := mono (ih m.2)
      have h4 : Connected (m :: ms) m.1 m.2 := .rel _ _ List.mem_cons_self
      exact .trans _ _ _ h1 (.trans _ _ _ (.symm _ _ h2) (.trans _ _ _ h4 h3))
    · exact mono (ih x)

theorem repOf_eq_of_mem {ms : List (ℕ × ℕ)} {a b : ℕ} (h : (a, b) ∈ ms) : repOf ms a = repOf ms b := by
  induction ms with
  | nil => simp at h
  | cons m ms ih =>
    rcases List.mem_cons.1 h with rfl | h
    · simp only [repOf, if_true]
      split <;> rfl
    · simp only [repOf, ih h]

theorem repOf_eq_iff (ms : List (ℕ × ℕ)) (a b : ℕ) : repOf ms a = repOf ms b ↔ Connected ms a b := by
  constructor
  · intro h
    refine .trans _ _ _ (repOf_connected ms a) ?_
    rw [h]
    exact .symm _ _ (repOf_connected ms b)
  · intro h
    induction h with
    | rel _ _ h => exact repOf_eq_of_mem h
    | refl _ => rfl
    | symm _ _ _ ih => exact ih.symm
    | trans _ _ _ _ _ ih ih' => exact ih.trans ih'

end Spec

end Aleph
