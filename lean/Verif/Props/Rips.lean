import Verif.Lemmas.Rips
import Verif.Props.Complex

/-!
# C26, C27, C28: Vietoris–Rips complexes
-/

namespace Aleph

open Finset Spec Rips

variable {α : Type}

theorem mem_low_iff {K : Complex α} (hK : WF K) (o : Orders α) (a b : ℕ) :
    b ∈ low (getLowerNeighbours (o.simps (K.range 1))) a ↔ b < a ∧ Has K {a, b} := by
  have hmem : ∀ s, s ∈ o.simps (K.range 1) ↔ s ∈ K ∧ s.vertices.length = 2 := by
    intro s
    rw [(o.simps_perm _).mem_iff]
    unfold Complex.range Complex.dim
    rw [List.mem_filter, beq_iff_eq]
    constructor
    · rintro ⟨h, h'⟩; exact ⟨h, by omega⟩
    · rintro ⟨h, h'⟩; exact ⟨h, by omega⟩
  rw [mem_low_getLowerNeighbours _ fun s hs => ⟨hK.normal s ((hmem s).1 hs).1, ((hmem s).1 hs).2⟩]
  constructor
  · rintro ⟨s, hs, he⟩
    have hs' := (hmem s).1 hs
    have hn := hK.normal s hs'.1
    rw [he] at hn
    refine ⟨by simpa [Normal] using hn, s, hs'.1, ?_⟩
    simp [Simplex.vset, he]
  · rintro ⟨hlt, s, hs, he⟩
    have hv : s.vertices = [a, b] := by
      refine Normal.ext (hK.normal s hs) (by simpa [Normal] using hlt) ?_
      intro x
      have : x ∈ s.vset ↔ x ∈ ({a, b} : Finset ℕ) := by rw [he]
      simpa [Simplex.vset] using this
    exact ⟨s, (hmem s).2 ⟨hs, by rw [hv]; rfl⟩, hv⟩

theorem reassign_vertices (K : Complex α) (s : Simplex α) : (reassign K s).vertices = s.vertices := by
  unfold reassign Simplex.withData
  split
  · split <;> rfl
  · rfl

/-- C26. The Rips expansion of a complex up to dimension `d` consists of the cliques with at most `d + 1`
vertices, each of them once, whatever the traversal orders.  Vertices and edges keep their data, all other simplices have
default data. -/
theorem C26_cliques (o : Orders α) (d0 : α) (K : Complex α) (hK : WF K) (hc : EdgeClosed K) (d : ℕ) :
    ∃ L, expand o d0 K d = some L ∧ WF L ∧
      (∀ t : Finset ℕ, Has L t ↔ t.Nonempty ∧ #t ≤ d + 1 ∧ IsClique K t) ∧
      (∀ s ∈ L, #s.vset ≤ 2 → HasData K s.vset s.data) ∧
      ∀ s ∈ L, 2 < #s.vset → s.data = d0 := by
  have hlow := mem_low_iff hK o
  obtain ⟨l, e, hm⟩ := expandList_spec o d0 (getLowerNeighbours (o.simps (K.range 1))) d
    (fun a b h => ((hlow a b).1 h).1) K.vertices
  have hVert : ∀ v, v ∈ K.vertices ↔ Has K {v} := fun v => (C22_vertices K hK).2 v
  -- the generated vertex lists
  have hgen : ∀ vs : List ℕ, (∃ x ∈ l, x.vertices = vs) ↔
      vs ≠ [] ∧ Normal vs ∧ vs.length ≤ d + 1 ∧ IsClique K vs.toFinset := by
    intro vs
    constructor
    · rintro ⟨x, hx, rfl⟩
      obtain ⟨v, hv, ws, rfl, hp, hl⟩ := (hm x).1 hx
      have hnorm : Normal (v :: ws) := hp.imp fun {a b} h => ((hlow a b).1 h).1
      refine ⟨by simp, hnorm, by simp; omega, ?_, ?_⟩
      · intro u hu
        rw [List.mem_toFinset] at hu
        rcases List.mem_cons.1 hu with rfl | hu
        · exact (hVert u).1 hv
        · have := (hlow _ _).1 ((List.pairwise_cons.1 hp).1 u hu)
          have h' := this.2
          rw [pair_comm] at h'
          exact hc u v (by omega) h'
      · intro a ha b hb hab
        rw [List.mem_toFinset] at ha hb
        have hs : (v :: ws).Pairwise fun a b => Has K {a, b} := hp.imp fun {a b} h => ((hlow a b).1 h).2
        exact List.Pairwise.forall_of_forall_of_flip (R := fun a b => a ≠ b → Has K {a, b})
          (fun x _ h => absurd rfl h) (hs.imp fun {a b} h (_ : a ≠ b) => h)
          (hs.imp fun {a b} h (_ : b ≠ a) => by rw [pair_comm]; exact h) ha hb hab
    · rintro ⟨h1, h2, h3, h4⟩
      cases vs with
      | nil => exact absurd rfl h1
      | cons v ws =>
        refine ⟨⟨v :: ws, d0⟩, (hm _).2 ⟨v, (hVert v).2 (h4.1 v (by simp)), ws, rfl, ?_, ?_⟩, rfl⟩
        · refine List.Pairwise.imp_of_mem ?_ h2
          intro a b ha hb hab
          exact (hlow a b).2 ⟨hab, h4.2 a (List.mem_toFinset.2 ha) b (List.mem_toFinset.2 hb)
            (Nat.ne_of_gt hab)⟩
        · simp at h3; omega
  obtain ⟨L, e', _, h2, h3⟩ := insertRange_spec [] (l.map (reassign K)) (by
    intro s hs
    obtain ⟨x, hx, rfl⟩ := List.mem_map.1 hs
    rw [reassign_vertices]
    exact ((hgen _).1 ⟨x, hx, rfl⟩).1)
  have hwf : WF L := by
    have := insertRange_wf (K := []) Spec.WF.nil (l := l.map (reassign K)) (by
      intro s hs
      obtain ⟨x, hx, rfl⟩ := List.mem_map.1 hs
      rw [reassign_vertices]
      exact ((hgen _).1 ⟨x, hx, rfl⟩).2.1)
    rwa [e'] at this
  have hmemL : ∀ s ∈ L, ∃ x ∈ l, s = reassign K x := by
    intro s hs
    rcases h2 s hs with h | h
    · simp at h
    · obtain ⟨x, hx, rfl⟩ := List.mem_map.1 h
      exact ⟨x, hx, rfl⟩
  refine ⟨L, ?_, hwf, ?_, ?_, ?_⟩
  · unfold expand
    rw [e]
    simp only [e']
  · intro t
    constructor
    · rintro ⟨s, hs, rfl⟩
      obtain ⟨x, hx, rfl⟩ := hmemL s hs
      obtain ⟨g1, g2, g3, g4⟩ := (hgen _).1 ⟨x, hx, rfl⟩
      unfold Simplex.vset
      rw [reassign_vertices, ← g2.length_eq]
      exact ⟨by simpa using g1, g3, g4⟩
    · rintro ⟨g1, g2, g3⟩
      obtain ⟨x, hx, hxv⟩ := (hgen (vlist t)).2 ⟨vlist_ne_nil g1, vlist_normal t, by
        rw [(vlist_normal t).length_eq, vlist_toFinset]; exact g2, by rw [vlist_toFinset]; exact g3⟩
      obtain ⟨s, hs, hsv⟩ := h3 (reassign K x) (List.mem_map_of_mem hx)
      refine ⟨s, hs, ?_⟩
      unfold Simplex.vset
      rw [hsv, reassign_vertices, hxv, vlist_toFinset]
  · intro s hs hcard
    obtain ⟨x, hx, rfl⟩ := hmemL s hs
    obtain ⟨g1, g2, g3, g4⟩ := (hgen _).1 ⟨x, hx, rfl⟩
    have hlen : x.vertices.length ≤ 2 := by
      rw [g2.length_eq]
      unfold Simplex.vset at hcard
      rwa [reassign_vertices] at hcard
    have hhas : ∃ y ∈ K, y.vertices = x.vertices := by
      have : Has K x.vertices.toFinset := by
        rcases hxv : x.vertices with _ | ⟨a, _ | ⟨b, _ | ⟨c, r⟩⟩⟩
        · exact absurd hxv g1
        · have := g4.1 a (by simp [hxv])
          simpa using this
        · rw [hxv] at g2
          have hba : b < a := by simpa [Normal] using g2
          have := g4.2 a (by simp [hxv]) b (by simp [hxv]) (by omega)
          simpa using this
        · rw [hxv] at hlen; simp at hlen
      obtain ⟨y, hy, he⟩ := this
      exact ⟨y, hy, ((hK.normal y hy).eq_iff g2).2 he⟩
    obtain ⟨y, hy, hyx⟩ := hhas
    refine ⟨y, hy, ?_, ?_⟩
    · unfold Simplex.vset
      rw [reassign_vertices, hyx]
    · unfold reassign Simplex.withData Complex.dim
      rw [if_pos (by omega), ← hyx, hK.find_eq hy]
  · intro s hs hcard
    obtain ⟨x, hx, rfl⟩ := hmemL s hs
    obtain ⟨g1, g2, g3, g4⟩ := (hgen _).1 ⟨x, hx, rfl⟩
    have hlen : 2 < x.vertices.length := by
      rw [g2.length_eq]
      unfold Simplex.vset at hcard
      rwa [reassign_vertices] at hcard
    obtain ⟨_, _, _, rfl, _⟩ := (hm x).1 hx
    unfold reassign Complex.dim
    rw [if_neg (by omega)]


/-- C26. The expansion is face-closed. -/
theorem C26_faceClosed (o : Orders α) (d0 : α) (K : Complex α) (hK : WF K) (hc : EdgeClosed K) (d : ℕ)
    (L : Complex α) (h : expand o d0 K d = some L) : FaceClosed L := by
  obtain ⟨L', e, _, h2, _⟩ := C26_cliques o d0 K hK hc d
  rw [h] at e
  cases e
  intro s hs t hts htn
  obtain ⟨g1, g2, g3, g4⟩ := (h2 s.vset).1 ⟨s, hs, rfl⟩
  exact (h2 t).2 ⟨htn, (card_le_card hts).trans g2, fun v hv => g3 v (hts hv),
    fun u hu v hv => g4 u (hts hu) v (hts hv)⟩

/-- A triangle with a pending edge. -/
def kite : Complex ℕ :=
  [⟨[0], 0⟩, ⟨[1], 0⟩, ⟨[2], 0⟩, ⟨[3], 0⟩, ⟨[1, 0], 5⟩, ⟨[2, 0], 6⟩, ⟨[2, 1], 7⟩, ⟨[3, 2], 8⟩]

example : WF kite := ⟨by decide, by decide, by decide⟩

example : EdgeClosed kite := by
  have h : FaceClosed kite := Closed1.faceClosed (by decide) (by unfold Closed1; decide)
  rintro u v _ ⟨s, hs, he⟩
  exact h s hs {u} (by rw [he]; simp) (by simp)

/-- The expansion need not be in filtration order: for some traversal orders a triangle precedes one of its
edges, so the complex has to be sorted before it is used. -/
theorem C26_order_witness : ∃ L, expand (Orders.reversed ℕ) 0 kite 2 = some L ∧ ¬ FacesFirst L := by
  refine ⟨[⟨[0], 0⟩, ⟨[1], 0⟩, ⟨[1, 0], 5⟩, ⟨[2], 0⟩, ⟨[2, 1], 7⟩, ⟨[2, 1, 0], 0⟩, ⟨[2, 0], 6⟩, ⟨[3], 0⟩,
    ⟨[3, 2], 8⟩], by decide, by unfold FacesFirst; decide⟩

/-! ### Weights -/

theorem foldl_max_faces [LinearOrder α] (S : Complex α) (fs : List (List ℕ)) (x : α) :
    IsGreatest {y | y = x ∨ ∃ f ∈ fs, ∃ t, S.find f = some t ∧ y = t.data}
      (fs.foldl (fun w f =>
        match S.find f with
        | none => w
        | some t => max w t.data) x) := by
  induction fs generalizing x with
  | nil => simp [IsGreatest, upperBounds]
  | cons f fs ih =>
    rw [List.foldl_cons]
    cases hf : S.find f with
    | none =>
      simp only
      obtain ⟨h1, h2⟩ := ih x
      refine ⟨?_, ?_⟩
      · rcases h1 with h | ⟨g, hg, h⟩
        · exact Or.inl h
        · exact Or.inr ⟨g, List.mem_cons_of_mem _ hg, h⟩
      · rintro y (h | ⟨g, hg, t, ht, rfl⟩)
        · exact h2 (Or.inl h)
        · rcases List.mem_cons.1 hg with rfl | hg
          · rw [hf] at ht; cases ht
          · exact h2 (Or.inr ⟨g, hg, t, ht, rfl⟩)
    | some t0 =>
      simp only
      obtain ⟨h1, h2⟩ := ih (max x t0.data)
      refine ⟨?_, ?_⟩
      · rcases h1 with h | ⟨g, hg, h⟩
        · rcases max_choice x t0.data with e | e
          · exact Or.inl (h.trans e)
          · exact Or.inr ⟨f, List.mem_cons_self, t0, hf, h.trans e⟩
        · exact Or.inr ⟨g, List.mem_cons_of_mem _ hg, h⟩
      · rintro y (rfl | ⟨g, hg, t, ht, rfl⟩)
        · exact (le_max_left _ _).trans (h2 (Or.inl rfl))
        · rcases List.mem_cons.1 hg with rfl | hg
          · rw [hf] at ht; cases ht
            exact (le_max_right _ _).trans (h2 (Or.inl rfl))
          · exact h2 (Or.inr ⟨g, hg, t, ht, rfl⟩)

theorem Spec.WF.of_map_vertices {K L : Complex α} (h : WF K)
    (hv : (L.map (·.vertices)).Perm (K.map (·.vertices))) : WF L := by
  have hm : ∀ s ∈ L, ∃ t ∈ K, t.vertices = s.vertices := fun s hs => by
    have := hv.subset (List.mem_map_of_mem (f := fun s : Simplex α => s.vertices) hs)
    simpa using this
  refine ⟨?_, ?_, hv.nodup_iff.2 h.distinct⟩
  · intro s hs
    obtain ⟨t, ht, he⟩ := hm s hs
    rw [← he]; exact h.normal t ht
  · intro s hs
    obtain ⟨t, ht, he⟩ := hm s hs
    rw [← he]; exact h.nonempty t ht

theorem has_of_map_vertices {K L : Complex α}
    (hv : (L.map (·.vertices)).Perm (K.map (·.vertices))) (t : Finset ℕ) : Has L t ↔ Has K t := by
  have key : ∀ {K L : Complex α}, (L.map (·.vertices)).Perm (K.map (·.vertices)) → Has L t → Has K t := by
    rintro K L hv ⟨s, hs, rfl⟩
    have := hv.subset (List.mem_map_of_mem (f := fun s : Simplex α => s.vertices) hs)
    obtain ⟨u, hu, he⟩ := List.mem_map.1 this
    exact ⟨u, hu, by unfold Simplex.vset; rw [he]⟩
  exact ⟨key hv, key hv.symm⟩

theorem assignMaximumWeight_loop [LinearOrder α] {K : Complex α} (hK : WF K) (hc : FaceClosed K) (m : ℕ)
    (post pre S : Complex α) (hp : (pre ++ post).Perm K)
    (hs : (pre ++ post).Pairwise fun s t => Complex.dim s ≤ Complex.dim t)
    (hS : S.map (·.vertices) = pre.map (·.vertices))
    (hW : ∀ s ∈ S, IsMaximumWeight K m s.vset s.data) :
    ∃ L, post.foldlM (fun S s =>
        if Complex.dim s > m then
          Complex.pushBack S (s.withData (s.faces.foldl (fun w f =>
            match S.find f with
            | none => w
            | some t => max w t.data) s.data))
        else Complex.pushBack S s) S = some L ∧
      L.map (·.vertices) = (pre ++ post).map (·.vertices) ∧
      ∀ s ∈ L, IsMaximumWeight K m s.vset s.data := by
  induction post generalizing pre S with
  | nil => exact ⟨S, rfl, by simpa using hS, hW⟩
  | cons s post ih =>
    have hwf : WF (pre ++ s :: post) := hK.perm hp
    have hsK : s ∈ K := hp.subset (by simp)
    have hsne := hK.nonempty s hsK
    have hsn := hK.normal s hsK
    have hnew : ∀ t ∈ S, t.vertices ≠ s.vertices := by
      intro t ht he
      have h1 : t.vertices ∈ pre.map (·.vertices) := by
        rw [← hS]; exact List.mem_map_of_mem (f := fun s : Simplex α => s.vertices) ht
      have := hwf.distinct
      rw [List.map_append, List.nodup_append] at this
      exact this.2.2 _ h1 _ (by simp) he
    have hcard : #s.vset = s.vertices.length := hsn.length_eq.symm
    have hpos := List.length_pos_iff.2 hsne
    have hSwf : WF S := Spec.WF.of_map_vertices (K := pre) (hwf.sublist (List.sublist_append_left _ _))
      (by rw [hS])
    have finish : ∀ x, IsMaximumWeight K m s.vset x →
        (∃ L, post.foldlM (fun S s =>
          if Complex.dim s > m then
            Complex.pushBack S (s.withData (s.faces.foldl (fun w f =>
              match S.find f with
              | none => w
              | some t => max w t.data) s.data))
          else Complex.pushBack S s) (S ++ [s.withData x]) = some L ∧
        L.map (·.vertices) = (pre ++ s :: post).map (·.vertices) ∧
        ∀ s ∈ L, IsMaximumWeight K m s.vset s.data) := by
      intro x hx
      have := ih (pre ++ [s]) (S ++ [s.withData x]) (by simpa using hp) (by simpa using hs)
        (by simp [hS, Simplex.withData]) (by
          intro t ht
          rcases List.mem_append.1 ht with ht | ht
          · exact hW t ht
          · rw [List.mem_singleton.1 ht]; exact hx)
      simpa using this
    rw [List.foldlM_cons]
    by_cases hd : Complex.dim s > m
    · rw [if_pos hd, pushBack_new (by simpa [Simplex.withData] using hsne)
        (by simpa [Simplex.withData] using hnew)]
      apply finish
      unfold Complex.dim at hd
      obtain ⟨g1, g2⟩ := foldl_max_faces S s.faces s.data
      -- every facet has been treated before
      have hfacet : ∀ f ∈ s.faces, ∃ t ∈ S, t.vertices = f ∧ S.find f = some t := by
        intro f hf
        obtain ⟨hf1, -, hf2, hf3⟩ := (mem_faces_iff hsn).1 hf
        obtain ⟨u, huK, hu⟩ := hc s hsK f.toFinset hf2 (by
          rw [← card_pos]; omega)
        have huv : u.vertices = f := ((hK.normal u huK).eq_iff hf1).2 hu
        have hup : u ∈ pre := by
          rcases List.mem_append.1 (hp.symm.subset huK) with h | h
          · exact h
          · exfalso
            have hlen : u.vertices.length + 1 = s.vertices.length := by
              rw [huv, hf1.length_eq, ← hcard]
              exact hf3
            rcases List.mem_cons.1 h with rfl | h
            · omega
            · rw [List.pairwise_append] at hs
              have := (List.pairwise_cons.1 hs.2.1).1 u h
              unfold Complex.dim at this
              omega
        have : u.vertices ∈ S.map (·.vertices) := by
          rw [hS]; exact List.mem_map_of_mem (f := fun s : Simplex α => s.vertices) hup
        obtain ⟨t, ht, he⟩ := List.mem_map.1 this
        exact ⟨t, ht, he.trans huv, by rw [← huv, ← he]; exact hSwf.find_eq ht⟩
      refine ⟨fun h => by omega, fun _ => ⟨?_, ?_⟩⟩
      · rcases g1 with h | ⟨f, hf, t, ht, h⟩
        · exact ⟨s.vset, subset_rfl, by omega, s, hsK, rfl, h.symm⟩
        · obtain ⟨hf1, -, hf2, hf3⟩ := (mem_faces_iff hsn).1 hf
          obtain ⟨htS, htf⟩ := find_some ht
          have htv : t.vset = f.toFinset := by unfold Simplex.vset; rw [htf]
          have hw := hW t htS
          rw [htv] at hw
          by_cases hfm : #f.toFinset ≤ m + 1
          · have h1 := hw.1 hfm
            rw [h]
            exact ⟨f.toFinset, hf2, by omega, h1⟩
          · obtain ⟨u, hu1, hu2, hu3⟩ := (hw.2 (by omega)).1
            rw [h]
            exact ⟨u, hu1.trans hf2, hu2, hu3⟩
      · rintro y ⟨u, hu1, hu2, hu3⟩
        by_cases hus : u = s.vset
        · obtain ⟨s', hs', he, rfl⟩ := hu3
          rw [hK.eq_of_vset hs' hsK (he.trans hus)]
          exact g2 (Or.inl rfl)
        · obtain ⟨v, hv1, hv2⟩ := exists_of_ssubset (hu1.ssubset_of_ne hus)
          have hf : vlist (s.vset.erase v) ∈ s.faces := by
            rw [mem_faces_iff hsn]
            have hec := card_erase_add_one hv1
            refine ⟨vlist_normal _, vlist_ne_nil (card_pos.1 (by omega)), ?_, ?_⟩
            · rw [vlist_toFinset]; exact erase_subset _ _
            · rw [vlist_toFinset]
              have := card_erase_add_one hv1
              unfold Simplex.vset at this ⊢
              omega
          obtain ⟨t, htS, htf, hft⟩ := hfacet _ hf
          have htv : t.vset = s.vset.erase v := by
            unfold Simplex.vset; rw [htf, vlist_toFinset]; rfl
          have hsub : u ⊆ s.vset.erase v := subset_erase.2 ⟨hu1, hv2⟩
          have hw := hW t htS
          have hle : t.data ≤ _ := g2 (Or.inr ⟨_, hf, t, hft, rfl⟩)
          refine le_trans ?_ hle
          by_cases hfm : #t.vset ≤ m + 1
          · have hut : u = t.vset := by
              rw [htv]
              refine eq_of_subset_of_card_le hsub ?_
              rw [htv] at hfm
              omega
            obtain ⟨a, ha, hae, had⟩ := hw.1 hfm
            obtain ⟨b, hb, hbe, hbd⟩ := hu3
            rw [← hbd, ← had, hK.eq_of_vset hb ha (by rw [hbe, hae, hut])]
          · exact (hw.2 (by omega)).2 ⟨u, by rw [htv]; exact hsub, hu2, hu3⟩
    · rw [if_neg hd, pushBack_new hsne hnew]
      unfold Complex.dim at hd
      exact finish s.data ⟨fun _ => ⟨s, hsK, rfl, rfl⟩, fun h => by omega⟩

/-- C27. `assignMaximumWeight` keeps the simplices of a face-closed complex; each simplex of dimension
larger than `m` gets the maximum data of its faces of dimension at least `m` (itself included), all others keep
their data. -/
theorem C27_maximum_weight [LinearOrder α] (o : Orders α) (m : ℕ) (K : Complex α) (hK : WF K)
    (hc : FaceClosed K) :
    ∃ L, assignMaximumWeight o m K = some L ∧ WF L ∧ (∀ t, Has L t ↔ Has K t) ∧
      ∀ s ∈ L, IsMaximumWeight K m s.vset s.data := by
  have hp : (Complex.byDimension (o.simps K)).Perm K := (byDimension_perm _).trans (o.simps_perm _)
  obtain ⟨L, h1, h2, h3⟩ := assignMaximumWeight_loop hK hc m (Complex.byDimension (o.simps K)) [] []
    (by simpa using hp) (by simpa using byDimension_sorted _) rfl (by simp)
  have hv : (L.map (·.vertices)).Perm (K.map (·.vertices)) := by
    rw [h2, List.nil_append]; exact hp.map _
  exact ⟨L, h1, hK.of_map_vertices hv, has_of_map_vertices hv, h3⟩

/-- C27. After the expansion of a complex with data at least the default value on its edges, each simplex of dimension
at least one has the maximum weight of its edges; vertices keep their data. -/
theorem C27_expansion_weights [LinearOrder α] (o : Orders α) (d0 : α) (K : Complex α) (hK : WF K)
    (hc : EdgeClosed K) (d : ℕ) :
    ∃ L M, expand o d0 K d = some L ∧ assignMaximumWeight o 1 L = some M ∧ WF M ∧
      (∀ t, Has M t ↔ Has L t) ∧
      (∀ s ∈ M, #s.vset = 1 → HasData K s.vset s.data) ∧
      (∀ s ∈ M, 2 ≤ #s.vset → (∀ e ∈ K, #e.vset = 2 → d0 ≤ e.data) →
        IsGreatest {y | ∃ e ⊆ s.vset, #e = 2 ∧ HasData K e y} s.data) ∧
      ∀ s ∈ M, 3 ≤ #s.vset → d0 ≤ s.data := by
  obtain ⟨L, h1, h2, h3, h4, h5⟩ := C26_cliques o d0 K hK hc d
  have hLc := C26_faceClosed o d0 K hK hc d L h1
  obtain ⟨M, g1, g2, g3, g4⟩ := C27_maximum_weight o 1 L h2 hLc
  have hdata : ∀ u y, HasData L u y → #u ≤ 2 → HasData K u y := by
    rintro u y ⟨a, ha, rfl, rfl⟩ hcard
    exact h4 a ha hcard
  have hdata' : ∀ u y, HasData K u y → #u ≤ 2 → Has L u → HasData L u y := by
    rintro u y ⟨a, ha, hau, rfl⟩ hcard ⟨b, hb, hbu⟩
    obtain ⟨a', ha', hau', had⟩ := h4 b hb (by rw [hbu]; exact hcard)
    rw [hbu] at hau'
    rw [hK.eq_of_vset ha ha' (by rw [hau, hau']), had]
    exact ⟨b, hb, hbu, rfl⟩
  have hsub : ∀ s ∈ M, ∀ e ⊆ s.vset, e.Nonempty → Has L e := by
    intro s hs e he hne
    obtain ⟨t, ht, hte⟩ := (g3 s.vset).1 ⟨s, hs, rfl⟩
    exact hLc t ht e (by rw [hte]; exact he) hne
  refine ⟨L, M, h1, g1, g2, g3, ?_, ?_, ?_⟩
  · intro s hs hcard
    exact hdata _ _ ((g4 s hs).1 (by omega)) (by omega)
  · intro s hs hcard hpos
    by_cases h2' : #s.vset = 2
    · have h := hdata _ _ ((g4 s hs).1 (by omega)) (by omega)
      refine ⟨⟨s.vset, subset_rfl, h2', h⟩, ?_⟩
      rintro y ⟨e, he, hec, a, ha, hae, rfl⟩
      have : e = s.vset := eq_of_subset_of_card_le he (by omega)
      obtain ⟨b, hb, hbe, hbd⟩ := h
      rw [← hbd, hK.eq_of_vset ha hb (by rw [hae, hbe, this])]
    · obtain ⟨⟨u, hu1, hu2, hu3⟩, k2⟩ := (g4 s hs).2 (by omega)
      have hup : IsGreatest {y | ∃ e ⊆ s.vset, #e = 2 ∧ HasData K e y} s.data ∨
          (s.data = d0 ∧ ∀ y, (∃ e ⊆ s.vset, #e = 2 ∧ HasData K e y) → y ≤ s.data) := by
        have hub : ∀ y, (∃ e ⊆ s.vset, #e = 2 ∧ HasData K e y) → y ≤ s.data := by
          rintro y ⟨e, he, hec, hy⟩
          exact k2 ⟨e, he, by omega, hdata' e y hy (by omega) (hsub s hs e he (card_pos.1 (by omega)))⟩
        by_cases hu : #u = 2
        · exact Or.inl ⟨⟨u, hu1, hu, hdata _ _ hu3 (by omega)⟩, fun y hy => hub y hy⟩
        · right
          obtain ⟨a, ha, hau, had⟩ := hu3
          refine ⟨?_, hub⟩
          rw [← had]
          exact h5 a ha (by rw [hau]; omega)
      rcases hup with h | ⟨h, hub⟩
      · exact h
      · obtain ⟨e, he, hec⟩ := exists_subset_card_eq (s := s.vset) (n := 2) (by omega)
        obtain ⟨b, hb, hbe⟩ := hsub s hs e he (card_pos.1 (by omega))
        obtain ⟨a, ha, hae, had⟩ := h4 b hb (by rw [hbe]; omega)
        rw [hbe] at hae
        have l1 := hub a.data ⟨e, he, hec, a, ha, hae, rfl⟩
        have l2 := hpos a ha (by rw [hae]; exact hec)
        have : s.data = a.data := le_antisymm (h ▸ l2) l1
        refine ⟨⟨e, he, hec, a, ha, hae, this.symm⟩, fun y hy => hub y hy⟩
  · intro s hs hcard
    obtain ⟨b, hb, hbe⟩ := hsub s hs s.vset subset_rfl (card_pos.1 (by omega))
    have := ((g4 s hs).2 (by omega)).2 ⟨s.vset, subset_rfl, by omega, b, hb, hbe, rfl⟩
    rw [h5 b hb (by rw [hbe]; omega)] at this
    exact this

/-- C27. Negative weights are clamped: a triangle whose edges all have negative weight gets weight zero. -/
theorem C27_negative_witness :
    ∃ L, expand (Orders.default ℤ) 0
      [⟨[0], -9⟩, ⟨[1], -9⟩, ⟨[2], -9⟩, ⟨[1, 0], -3⟩, ⟨[2, 0], -3⟩, ⟨[2, 1], -3⟩] 2 = some L ∧
    assignMaximumWeight (Orders.default ℤ) 1 L = some
      [⟨[0], -9⟩, ⟨[1], -9⟩, ⟨[2], -9⟩, ⟨[1, 0], -3⟩, ⟨[2, 0], -3⟩, ⟨[2, 1], -3⟩, ⟨[2, 1, 0], 0⟩] :=
  ⟨_, rfl, by decide⟩

end Aleph
