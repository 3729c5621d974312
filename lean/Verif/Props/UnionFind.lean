import Verif.Lemmas.UnionFind
import Verif.Lemmas.Complex
import Verif.Props.Complex

/-!
# C13–C15: Union-Find and connected components
-/

namespace Aleph

open Aleph.Spec ParentMap

variable {α : Type}

theorem runOps_spec (V : ℕ → Prop) (ops : List ParentMap.Op) (p : ParentMap) (ms : List (ℕ × ℕ))
    (h : Represents V p (repOf ms)) :
    (p.runOps ops = none ↔ ∃ b u v, ParentMap.Op.merge b u v ∈ ops ∧ u ≠ v ∧ (¬ V u ∨ ¬ V v)) ∧
    ∀ p', p.runOps ops = some p' → Represents V p' (repOf (mergesOf ops ++ ms)) := by
  induction ops generalizing p ms with
  | nil =>
    refine ⟨by simp [runOps], ?_⟩
    intro p' hp'
    cases hp'
    exact h
  | cons o ops ih =>
    have step : ∀ p1 ms1, p.exec o = some p1 → Represents V p1 (repOf ms1) →
        mergesOf ops ++ ms1 = mergesOf (o :: ops) ++ ms →
        (∀ b u v, o = .merge b u v → ¬ (u ≠ v ∧ (¬ V u ∨ ¬ V v))) →
        (p.runOps (o :: ops) = none ↔ ∃ b u v, ParentMap.Op.merge b u v ∈ o :: ops ∧ u ≠ v ∧ (¬ V u ∨ ¬ V v)) ∧
        ∀ p', p.runOps (o :: ops) = some p' → Represents V p' (repOf (mergesOf (o :: ops) ++ ms)) := by
      intro p1 ms1 he hr hm hno
      have hrun : p.runOps (o :: ops) = p1.runOps ops := by
        simp only [runOps, List.foldlM_cons, he]; rfl
      obtain ⟨ih1, ih2⟩ := ih p1 ms1 hr
      rw [hrun, ← hm]
      refine ⟨?_, ih2⟩
      rw [ih1]
      constructor
      · rintro ⟨b, u, v, h1, h2⟩; exact ⟨b, u, v, List.mem_cons_of_mem _ h1, h2⟩
      · rintro ⟨b, u, v, h1, h2⟩
        rcases List.mem_cons.1 h1 with h1 | h1
        · exact absurd h2 (hno b u v h1.symm)
        · exact ⟨b, u, v, h1, h2⟩
    cases o with
    | merge b u v =>
      by_cases hbad : u ≠ v ∧ (¬ V u ∨ ¬ V v)
      · have hn : p.runOps (.merge b u v :: ops) = none := by
          simp only [runOps, List.foldlM_cons, exec, (h.merge_none b).2 hbad]; rfl
        refine ⟨?_, ?_⟩
        · simp only [hn, true_iff]
          exact ⟨b, u, v, List.mem_cons_self, hbad⟩
        · intro p' hp'
          rw [hn] at hp'
          cases hp'
      · have hms : mergesOf ops ++ (u, v) :: ms = mergesOf (.merge b u v :: ops) ++ ms := by
          simp [mergesOf]
        have hno : ∀ b' u' v', ParentMap.Op.merge b u v = .merge b' u' v' → ¬ (u' ≠ v' ∧ (¬ V u' ∨ ¬ V v')) := by
          rintro b' u' v' he; cases he; exact hbad
        by_cases huv : u = v
        · subst huv
          refine step p ((u, u) :: ms) (by simp [exec, ParentMap.merge]) ?_ hms hno
          have he : repOf ((u, u) :: ms) = repOf ms := by
            funext x
            simp only [repOf]
            split
            · next h' => exact h'.symm
            · rfl
          rw [he]
          exact h
        · have hV : V u ∧ V v := by
            by_contra h'
            exact hbad ⟨huv, by tauto⟩
          obtain ⟨p1, h1, h2⟩ := h.merge b hV.1 hV.2
          exact step p1 ((u, v) :: ms) h1 h2 hms hno
    | find u =>
      have hms : mergesOf ops ++ ms = mergesOf (.find u :: ops) ++ ms := by simp [mergesOf]
      by_cases hu : V u
      · obtain ⟨p1, h1, h2⟩ := h.find hu
        exact step p1 ms (by simp [exec, h1]) h2 hms (by intro _ _ _ h; cases h)
      · exact step p ms (by simp [exec, h.find_none hu]) h hms (by intro _ _ _ h; cases h)
    | roots =>
      have hms : mergesOf ops ++ ms = mergesOf (.roots :: ops) ++ ms := by simp [mergesOf]
      obtain ⟨p1, l, h1, h2, _⟩ := h.roots
      exact step p1 ms (by simp [exec, h1]) h2 hms (by intro _ _ _ h; cases h)
    | get v =>
      have hms : mergesOf ops ++ ms = mergesOf (.get v :: ops) ++ ms := by simp [mergesOf]
      by_cases hv : V v
      · obtain ⟨p1, l, h1, h2, _⟩ := h.get hv
        exact step p1 ms (by simp [exec, h1]) h2 hms (by intro _ _ _ h; cases h)
      · exact step p ms (by simp [exec, ParentMap.get, h.find_none hv]) h hms (by intro _ _ _ h; cases h)

theorem runOps_represents (vs : List ℕ) (ops : List ParentMap.Op) (p : ParentMap)
    (h : (ParentMap.ofRange vs).runOps ops = some p) : Represents (· ∈ vs) p (repOf (mergesOf ops)) := by
  have := (runOps_spec (· ∈ vs) ops _ [] (Represents.ofRange vs)).2 p h
  simpa using this

/-- C13. After every history of calls on a structure for the elements `vs` in which no two distinct elements
with one of them unknown are merged: `find` terminates and returns an element, throws
exactly for unknown elements, and two elements have the same representative exactly if they
are connected by the merged pairs. -/
theorem C13_find (vs : List ℕ) (ops : List ParentMap.Op) (p : ParentMap)
    (h : (ParentMap.ofRange vs).runOps ops = some p) :
    (∀ u, p.contains u = true ↔ u ∈ vs) ∧
    (∀ u, p.find u = none ↔ u ∉ vs) ∧
    (∀ u p' r, p.find u = some (p', r) → r ∈ vs) ∧
    ∀ u v p₁ p₂ r s, p.find u = some (p₁, r) → p.find v = some (p₂, s) →
      (r = s ↔ Connected (mergesOf ops) u v) := by
  have hr := runOps_represents vs ops p h
  have hval : ∀ u p' r, p.find u = some (p', r) → u ∈ vs ∧ r = repOf (mergesOf ops) u := by
    intro u p' r hf
    by_cases hu : u ∈ vs
    · obtain ⟨p1, h1, _⟩ := hr.find hu
      rw [h1] at hf
      cases hf
      exact ⟨hu, rfl⟩
    · rw [hr.find_none hu] at hf; cases hf
  refine ⟨?_, ?_, ?_, ?_⟩
  · intro u
    rw [ParentMap.contains, at?_isSome, hr.keys]
  · intro u
    constructor
    · intro hn hu
      obtain ⟨p1, h1, _⟩ := hr.find hu
      rw [h1] at hn; cases hn
    · exact hr.find_none
  · intro u p' r hf
    obtain ⟨hu, rfl⟩ := hval u p' r hf
    exact hr.rep_mem hu
  · intro u v p₁ p₂ r s hu hv
    rw [(hval _ _ _ hu).2, (hval _ _ _ hv).2, repOf_eq_iff]

/-- C13. The history succeeds, i.e. the program is not terminated, exactly if no two distinct elements
are merged one of which is unknown; the evaluation order of the compiler is irrelevant. -/
theorem C13_terminate (vs : List ℕ) (ops : List ParentMap.Op) :
    (ParentMap.ofRange vs).runOps ops = none ↔
      ∃ b u v, ParentMap.Op.merge b u v ∈ ops ∧ u ≠ v ∧ (u ∉ vs ∨ v ∉ vs) :=
  (runOps_spec (· ∈ vs) ops _ [] (Represents.ofRange vs)).1

/-- C13. Queries (`find`, `roots`, `get`) after a history do not change the answer of any later `find`, although
they restructure the trees. -/
theorem C13_queries_harmless (vs : List ℕ) (ops qs : List ParentMap.Op)
    (hq : ∀ q ∈ qs, ∀ b u v, q ≠ .merge b u v) (p : ParentMap)
    (h : (ParentMap.ofRange vs).runOps ops = some p) (u : ℕ) :
    ∃ p', p.runOps qs = some p' ∧ (p'.find u).map (·.2) = (p.find u).map (·.2) := by
  have hr := runOps_represents vs ops p h
  obtain ⟨h1, h2⟩ := runOps_spec (· ∈ vs) qs p _ hr
  have hm : mergesOf qs = [] := by
    unfold mergesOf
    rw [List.reverse_eq_nil_iff, List.filterMap_eq_nil_iff]
    intro q hqm
    cases q with
    | merge b u v => exact absurd rfl (hq _ hqm b u v)
    | _ => rfl
  cases hrun : p.runOps qs with
  | none =>
    obtain ⟨b, u, v, hmem, _⟩ := h1.1 hrun
    exact absurd rfl (hq _ hmem b u v)
  | some p' =>
    refine ⟨p', rfl, ?_⟩
    have hr' := h2 p' hrun
    rw [hm, List.nil_append] at hr'
    by_cases hu : u ∈ vs
    · obtain ⟨p1, e1, _⟩ := hr.find hu
      obtain ⟨p2, e2, _⟩ := hr'.find hu
      rw [e1, e2]; rfl
    · rw [hr.find_none hu, hr'.find_none hu]

/-- C14. `roots` lists exactly one element of each class, namely its representative, and `get v` lists the
class of `v`, each element once. -/
theorem C14_roots_get (vs : List ℕ) (ops : List ParentMap.Op) (p : ParentMap)
    (h : (ParentMap.ofRange vs).runOps ops = some p) :
    (∃ p' rs, p.roots = some (p', rs) ∧ rs.Nodup ∧
      (∀ r ∈ rs, r ∈ vs ∧ ∃ p'', p.find r = some (p'', r)) ∧
      ∀ u ∈ vs, ∃! r, r ∈ rs ∧ Connected (mergesOf ops) u r) ∧
    ∀ v ∈ vs, ∃ p' l, p.get v = some (p', l) ∧ l.Nodup ∧
      ∀ u, u ∈ l ↔ u ∈ vs ∧ Connected (mergesOf ops) u v := by
  have hr := runOps_represents vs ops p h
  refine ⟨?_, ?_⟩
  · obtain ⟨p', rs, h1, _, h3, h4⟩ := hr.roots
    refine ⟨p', rs, h1, h3, ?_, ?_⟩
    · intro r hrs
      obtain ⟨h5, h6⟩ := (h4 r).1 hrs
      obtain ⟨p1, e1, _⟩ := hr.find h5
      rw [h6] at e1
      exact ⟨h5, p1, e1⟩
    · intro u hu
      refine ⟨repOf (mergesOf ops) u, ⟨(h4 _).2 ⟨hr.rep_mem hu, hr.rep_rep hu⟩, repOf_connected _ _⟩, ?_⟩
      rintro r ⟨h5, h6⟩
      rw [← repOf_eq_iff, ((h4 r).1 h5).2] at h6
      exact h6.symm
  · intro v hv
    obtain ⟨p', l, h1, _, h3, h4⟩ := hr.get hv
    refine ⟨p', l, h1, h3, ?_⟩
    intro u
    rw [h4, repOf_eq_iff]

/-- C14. Merging is directional: after `merge(u, v)` the representative of the united class is the old
representative of `v`, and other elements keep theirs. -/
theorem C14_merge_directional (vs : List ℕ) (ops : List ParentMap.Op) (p : ParentMap)
    (h : (ParentMap.ofRange vs).runOps ops = some p) (b : Bool) (u v : ℕ) (hu : u ∈ vs) (hv : v ∈ vs) :
    ∃ p', p.merge b u v = some p' ∧ ∀ x ∈ vs, (p'.find x).map (·.2) =
      if (p.find x).map (·.2) = (p.find u).map (·.2) then (p.find v).map (·.2)
      else (p.find x).map (·.2) := by
  have hr := runOps_represents vs ops p h
  obtain ⟨p', h1, h2⟩ := hr.merge b hu hv
  refine ⟨p', h1, ?_⟩
  intro x hx
  obtain ⟨_, e1, _⟩ := hr.find hx
  obtain ⟨_, e2, _⟩ := hr.find hu
  obtain ⟨_, e3, _⟩ := hr.find hv
  obtain ⟨_, e4, _⟩ := h2.find hx
  rw [e1, e2, e3, e4]
  simp only [Option.map_some, Option.some.injEq]
  split <;> rfl

/-- Non-vacuity of C13 and C14: two classes built with both evaluation orders. -/
example : ((ParentMap.ofRange [1, 2, 3, 4, 5]).runOps
    [.merge true 1 2, .merge false 2 3, .find 1, .merge true 5 4, .roots, .get 9]).bind
      (fun p => (p.roots).map (·.2)) = some [3, 4] := by decide

theorem edge_vertices {K : Complex α} (hK : WF K) {s : Simplex α} (hs : s ∈ K) (hd : Complex.dim s = 1) :
    ∃ u v, s.vertices = [u, v] ∧ v < u := by
  have hn := hK.normal s hs
  have h0 := hK.nonempty s hs
  unfold Complex.dim at hd
  match hv : s.vertices with
  | [] => exact absurd hv h0
  | [a] => rw [hv] at hd; simp at hd
  | [a, b] =>
    refine ⟨a, b, rfl, ?_⟩
    rw [hv] at hn
    unfold Normal at hn
    simpa using hn
  | a :: b :: c :: l => rw [hv] at hd; simp at hd

/-- C15. For a face-closed complex the components computed by `calculateConnectedComponents` are the path
components: two vertices are in the same component exactly if a path of edges joins them.  `edges`
is any enumeration of the edges. -/
theorem C15_components (leftFirst : Bool) (K edges : Complex α) (hK : WF K) (hc : FaceClosed K)
    (he : edges.Perm (K.range 1)) :
    ∃ p, connectedComponents leftFirst K edges = some p ∧
      (∀ u, p.contains u = true ↔ ∃ s ∈ K, s.vset = {u}) ∧
      ∀ u v p₁ p₂ r s, p.find u = some (p₁, r) → p.find v = some (p₂, s) →
        (r = s ↔ Relation.EqvGen (fun a b => a ≠ b ∧ ∃ e ∈ K, e.vset = {a, b}) u v) := by
  have hV := (C22_vertices K hK).2
  have hE := (C22_dimension K hK).2.2 1
  have main : ∀ (es : List (Simplex α)) (p : ParentMap) (ms : List (ℕ × ℕ)), (∀ e ∈ es, e ∈ K.range 1) →
      Represents (· ∈ K.vertices) p (repOf ms) →
      ∃ p' ms', (es.foldlM (fun p s =>
        match s.vertices[0]?, s.vertices[1]? with
        | some u, some v => if u < v then p.merge leftFirst v u else p.merge leftFirst u v
        | _, _ => none) p) = some p' ∧ Represents (· ∈ K.vertices) p' (repOf ms') ∧
        ∀ a b, (a, b) ∈ ms' ↔ (a, b) ∈ ms ∨ ∃ e ∈ es, e.vertices = [a, b] := by
    intro es
    induction es with
    | nil => intro p ms _ h; exact ⟨p, ms, rfl, h, by simp⟩
    | cons e es ih =>
      intro p ms hes h
      have heK := hes e List.mem_cons_self
      have hed : Complex.dim e = 1 := by
        unfold Complex.range at heK
        rw [List.mem_filter, beq_iff_eq] at heK
        exact heK.2
      have heK' : e ∈ K := ((hE e).1 heK).1
      obtain ⟨u, v, huv, hlt⟩ := edge_vertices hK heK' hed
      have hmem : ∀ x, x ∈ e.vset → x ∈ K.vertices := by
        intro x hx
        obtain ⟨t, ht, hts⟩ := hc e heK' {x} (by simpa using hx) ⟨x, by simp⟩
        exact (hV x).2 ⟨t, ht, hts⟩
      have hu : u ∈ K.vertices := hmem u (by simp [Simplex.vset, huv])
      have hv : v ∈ K.vertices := hmem v (by simp [Simplex.vset, huv])
      obtain ⟨p1, h1, h2⟩ := h.merge leftFirst hu hv
      obtain ⟨p', ms', h3, h4, h5⟩ := ih p1 ((u, v) :: ms) (fun x hx => hes x (List.mem_cons_of_mem _ hx)) h2
      refine ⟨p', ms', ?_, h4, ?_⟩
      · rw [List.foldlM_cons]
        simp only [huv, List.getElem?_cons_zero, List.getElem?_cons_succ, if_neg (not_lt.2 hlt.le), h1]
        exact h3
      · intro a b
        rw [h5, List.mem_cons]
        constructor
        · rintro ((h | h) | ⟨e', he', h⟩)
          · cases h; exact Or.inr ⟨e, List.mem_cons_self, huv⟩
          · exact Or.inl h
          · exact Or.inr ⟨e', List.mem_cons_of_mem _ he', h⟩
        · rintro (h | ⟨e', he', h⟩)
          · exact Or.inl (Or.inr h)
          · rcases List.mem_cons.1 he' with rfl | he'
            · rw [huv] at h; cases h; exact Or.inl (Or.inl rfl)
            · exact Or.inr ⟨e', he', h⟩
  obtain ⟨p, ms, h1, h2, h3⟩ := main edges _ [] (fun e h => he.mem_iff.1 h) (Represents.ofRange K.vertices)
  refine ⟨p, h1, ?_, ?_⟩
  · intro u
    rw [ParentMap.contains, at?_isSome, h2.keys, hV]
  · have hval : ∀ u p' r, p.find u = some (p', r) → r = repOf ms u := by
      intro u p' r hf
      by_cases hu : u ∈ K.vertices
      · obtain ⟨p1, h1, _⟩ := h2.find hu
        rw [h1] at hf
        cases hf
        rfl
      · rw [h2.find_none hu] at hf; cases hf
    intro u v p₁ p₂ r s hu hv
    rw [hval _ _ _ hu, hval _ _ _ hv, repOf_eq_iff]
    have hms : ∀ a b, (a, b) ∈ ms → a ≠ b ∧ ∃ e ∈ K, e.vset = {a, b} := by
      intro a b hab
      obtain ⟨e, heE, hev⟩ := ((h3 a b).1 hab).resolve_left (by simp)
      have heK' : e ∈ K := ((hE e).1 (he.mem_iff.1 heE)).1
      refine ⟨?_, e, heK', by simp [Simplex.vset, hev]⟩
      have := hK.normal e heK'
      rw [hev] at this
      unfold Normal at this
      rintro rfl
      simp at this
    constructor
    · exact Relation.EqvGen.mono hms u v
    · intro h
      unfold Connected
      clear hu hv
      induction h with
      | refl _ => exact .refl _
      | symm _ _ _ ih => exact .symm _ _ ih
      | trans _ _ _ _ _ ih ih' => exact .trans _ _ _ ih ih'
      | rel a b hab =>
        obtain ⟨hne, e, heK, hev⟩ := hab
        have hcard : e.vset.card = 1 + 1 := by rw [hev, Finset.card_pair hne]
        have heR := (hE e).2 ⟨heK, hcard⟩
        have hed : Complex.dim e = 1 := by
          unfold Complex.range at heR
          rw [List.mem_filter, beq_iff_eq] at heR
          exact heR.2
        obtain ⟨x, y, hxy, hlt⟩ := edge_vertices hK heK hed
        have hm : (x, y) ∈ ms := (h3 x y).2 (Or.inr ⟨e, he.mem_iff.2 heR, hxy⟩)
        have hset : ({x, y} : Finset ℕ) = {a, b} := by rw [← hev]; simp [Simplex.vset, hxy]
        have ha : a ∈ ({x, y} : Finset ℕ) := by rw [hset]; simp
        have hb : b ∈ ({x, y} : Finset ℕ) := by rw [hset]; simp
        simp only [Finset.mem_insert, Finset.mem_singleton] at ha hb
        rcases ha with rfl | rfl <;> rcases hb with rfl | rfl
        · exact absurd rfl hne
        · exact .rel _ _ hm
        · exact .symm _ _ (.rel _ _ hm)
        · exact absurd rfl hne

/-- Non-vacuity of C15. -/
example : let K : Complex ℕ := [⟨[0], 0⟩, ⟨[1], 0⟩, ⟨[2], 0⟩, ⟨[2, 0], 1⟩]
    WF K ∧ Closed1 K ∧ (connectedComponents false K (K.range 1)).bind (fun p => p.roots.map (·.2)) = some [0, 1] := by
  refine ⟨⟨by decide, by decide, by decide⟩, by unfold Closed1; decide, by decide⟩

end Aleph
