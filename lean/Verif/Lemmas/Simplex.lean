import Verif.Spec.Complex
import Mathlib.Data.Finset.Sort

namespace Aleph

open Finset

variable {α : Type}

theorem Normal.nodup {l : List ℕ} (h : Normal l) : l.Nodup :=
  List.Pairwise.imp (fun hab => by omega) h

theorem mem_uniq {x : ℕ} {l : List ℕ} : x ∈ uniq l ↔ x ∈ l := by
  induction l using uniq.induct with
  | case1 => simp [uniq]
  | case2 y => simp [uniq]
  | case3 y l ih => rw [uniq, if_pos rfl, ih]; simp
  | case4 y z l hne ih => rw [uniq, if_neg hne, List.mem_cons, ih]; simp

theorem uniq_normal {l : List ℕ} (h : l.Pairwise (· ≥ ·)) : Normal (uniq l) := by
  induction l using uniq.induct with
  | case1 => simp [uniq, Normal]
  | case2 y => simp [uniq, Normal]
  | case3 y l ih => rw [uniq, if_pos rfl]; exact ih (List.pairwise_cons.1 h).2
  | case4 y z l hne ih =>
    rw [uniq, if_neg hne]
    obtain ⟨h1, h2⟩ := List.pairwise_cons.1 h
    refine List.pairwise_cons.2 ⟨?_, ih h2⟩
    intro a ha
    rw [mem_uniq] at ha
    have hz : y ≥ z := h1 z (by simp)
    rcases List.mem_cons.1 ha with rfl | ha'
    · omega
    · have := (List.pairwise_cons.1 h2).1 a ha'; omega

theorem uniq_of_normal {l : List ℕ} (h : Normal l) : uniq l = l := by
  induction l using uniq.induct with
  | case1 => simp [uniq]
  | case2 y => simp [uniq]
  | case3 y l ih => exact absurd ((List.pairwise_cons.1 h).1 y (by simp)) (by simp)
  | case4 y z l hne ih => rw [uniq, if_neg hne, ih (List.pairwise_cons.1 h).2]

theorem sortDesc_of_normal {l : List ℕ} (h : Normal l) : l.insertionSort (· ≥ ·) = l :=
  List.Pairwise.insertionSort_eq (List.Pairwise.imp (fun hab => by omega) h)

theorem pairwise_sortDesc (l : List ℕ) : (l.insertionSort (· ≥ ·)).Pairwise (· ≥ ·) :=
  List.pairwise_insertionSort _ _

theorem ofRange_normal (vs : List ℕ) (d : α) : Normal (Simplex.ofRange vs d).vertices :=
  uniq_normal (pairwise_sortDesc vs)

theorem mem_ofRange {vs : List ℕ} {d : α} {v : ℕ} :
    v ∈ (Simplex.ofRange vs d).vertices ↔ v ∈ vs := by
  rw [Simplex.ofRange, mem_uniq, List.mem_insertionSort]

/-- Normal lists with the same elements are equal. -/
theorem Normal.ext {l m : List ℕ} (hl : Normal l) (hm : Normal m) (h : ∀ x, x ∈ l ↔ x ∈ m) :
    l = m := by
  have hp : l.Perm m := (List.perm_ext_iff_of_nodup hl.nodup hm.nodup).2 h
  exact hp.eq_of_pairwise (fun a b _ _ hab hba => by omega) hl hm

theorem Normal.eq_iff {l m : List ℕ} (hl : Normal l) (hm : Normal m) :
    l = m ↔ l.toFinset = m.toFinset := by
  refine ⟨fun h => by rw [h], fun h => hl.ext hm fun x => ?_⟩
  rw [← List.mem_toFinset, h, List.mem_toFinset]

/-- The normal list of a finite set. -/
def vlist (t : Finset ℕ) : List ℕ := t.sort (· ≥ ·)

theorem vlist_normal (t : Finset ℕ) : Normal (vlist t) := by
  have h1 : (vlist t).Pairwise (· ≥ ·) := t.pairwise_sort (· ≥ ·)
  have h2 : (vlist t).Nodup := t.sort_nodup (· ≥ ·)
  exact h1.imp₂ (fun a b hab hne => by omega) h2

theorem vlist_toFinset (t : Finset ℕ) : (vlist t).toFinset = t := t.sort_toFinset (· ≥ ·)

theorem mem_vlist {t : Finset ℕ} {x : ℕ} : x ∈ vlist t ↔ x ∈ t := Finset.mem_sort _

theorem vlist_ne_nil {t : Finset ℕ} (h : t.Nonempty) : vlist t ≠ [] := by
  obtain ⟨x, hx⟩ := h
  intro he
  have := mem_vlist.2 hx
  rw [he] at this; simp at this

theorem vlist_of_normal {l : List ℕ} (h : Normal l) : vlist l.toFinset = l :=
  (vlist_normal _).ext h fun x => by rw [mem_vlist, List.mem_toFinset]

theorem Normal.length_eq {l : List ℕ} (h : Normal l) : l.length = l.toFinset.card :=
  (List.toFinset_card_of_nodup h.nodup).symm

theorem Normal.filter {l : List ℕ} (h : Normal l) (p : ℕ → Bool) : Normal (l.filter p) :=
  List.Pairwise.filter p h

/-- The faces of a normal simplex, without the superfluous sorting. -/
theorem faces_eq {s : Simplex α} (h : Normal s.vertices) :
    s.faces = if s.vertices.length ≤ 1 then []
      else s.vertices.map fun v => s.vertices.filter (· ≠ v) := by
  unfold Simplex.faces
  split
  · rfl
  · apply List.map_congr_left
    intro v _
    rw [sortDesc_of_normal (h.filter _), uniq_of_normal (h.filter _)]

theorem toFinset_filter_ne (l : List ℕ) (v : ℕ) :
    (l.filter (· ≠ v)).toFinset = l.toFinset.erase v := by
  ext x; simp [and_comm]

theorem mem_faces {s : Simplex α} (h : Normal s.vertices) {f : List ℕ} :
    f ∈ s.faces ↔ 2 ≤ s.vertices.length ∧ ∃ v ∈ s.vertices, f = s.vertices.filter (· ≠ v) := by
  rw [faces_eq h]
  split
  · next hl => simp; omega
  · next hl =>
    simp only [List.mem_map]
    constructor
    · rintro ⟨v, hv, rfl⟩; exact ⟨by omega, v, hv, rfl⟩
    · rintro ⟨_, v, hv, rfl⟩; exact ⟨v, hv, rfl⟩

/-- Faces in terms of vertex sets. -/
theorem mem_faces_iff {s : Simplex α} (h : Normal s.vertices) {f : List ℕ} :
    f ∈ s.faces ↔ Normal f ∧ f ≠ [] ∧ f.toFinset ⊆ s.vset ∧ f.toFinset.card + 1 = s.vset.card := by
  rw [mem_faces h]
  have hlen := h.length_eq
  constructor
  · rintro ⟨h2, v, hv, rfl⟩
    have hc : (s.vertices.toFinset.erase v).card + 1 = s.vertices.toFinset.card :=
      Finset.card_erase_add_one (List.mem_toFinset.2 hv)
    refine ⟨h.filter _, ?_, ?_, ?_⟩
    · intro he
      have : ((s.vertices.filter (· ≠ v)).toFinset).card = 0 := by rw [he]; rfl
      rw [toFinset_filter_ne] at this
      omega
    · rw [toFinset_filter_ne]; exact Finset.erase_subset _ _
    · rw [toFinset_filter_ne]; exact hc
  · rintro ⟨hf, hne, hsub, hcard⟩
    have hpos : 0 < f.toFinset.card := by
      rw [← hf.length_eq]; exact List.length_pos_of_ne_nil hne
    have hd : (s.vset \ f.toFinset).card = 1 := by
      rw [Finset.card_sdiff_of_subset hsub]; omega
    obtain ⟨v, hv⟩ := Finset.card_eq_one.1 hd
    have hvm : v ∈ s.vset \ f.toFinset := by rw [hv]; simp
    rw [Finset.mem_sdiff] at hvm
    refine ⟨?_, v, List.mem_toFinset.1 hvm.1, ?_⟩
    · rw [hlen]; change 2 ≤ s.vset.card; omega
    · rw [hf.eq_iff (h.filter _), toFinset_filter_ne]
      apply Finset.eq_of_subset_of_card_le
      · intro x hx
        rw [Finset.mem_erase]
        exact ⟨fun e => hvm.2 (e ▸ hx), hsub hx⟩
      · change (s.vset.erase v).card ≤ _
        rw [Finset.card_erase_of_mem hvm.1]
        omega

theorem faces_nodup {s : Simplex α} (h : Normal s.vertices) : s.faces.Nodup := by
  rw [faces_eq h]
  split
  · exact List.nodup_nil
  · refine List.Nodup.map_on ?_ h.nodup
    intro a ha b hb hab
    by_contra hne
    have : a ∈ s.vertices.filter (· ≠ b) := by simp [ha, hne]
    rw [← hab] at this
    simp at this

/-! ### Lexicographic order -/

open Simplex

theorem lexLt_irrefl (l : List ℕ) : lexLt l l = false := by
  induction l with
  | nil => rfl
  | cons x l ih => simp [lexLt, ih]

theorem lexLt_trans {a b c : List ℕ} (h1 : lexLt a b = true) (h2 : lexLt b c = true) :
    lexLt a c = true := by
  induction a generalizing b c with
  | nil =>
    cases c with
    | nil => cases b <;> simp [lexLt] at h2
    | cons z c => rfl
  | cons x a ih =>
    cases b with
    | nil => simp [lexLt] at h1
    | cons y b =>
      cases c with
      | nil => simp [lexLt] at h2
      | cons z c =>
        simp only [lexLt] at h1 h2 ⊢
        split_ifs at h1 h2 ⊢ <;> first | rfl | omega | exact ih h1 h2

theorem lexLt_total {a b : List ℕ} (h : a ≠ b) : lexLt a b = true ∨ lexLt b a = true := by
  induction a generalizing b with
  | nil =>
    cases b with
    | nil => exact absurd rfl h
    | cons y b => left; rfl
  | cons x a ih =>
    cases b with
    | nil => right; rfl
    | cons y b =>
      simp only [lexLt]
      rcases lt_trichotomy x y with hxy | hxy | hxy
      · left; simp [hxy]
      · subst hxy
        simp only [lt_irrefl, if_false]
        exact ih fun e => h (by rw [e])
      · right; simp [hxy]

theorem lexLt_of_sublist {a b : List ℕ} (hb : Normal b) (h : a.Sublist b) (hne : a ≠ b) :
    lexLt a b = true := by
  induction h with
  | slnil => exact absurd rfl hne
  | @cons l₁ l₂ y hs ih =>
    cases l₁ with
    | nil => rfl
    | cons x l =>
      have hx : x ∈ l₂ := hs.subset (by simp)
      have : y > x := (List.pairwise_cons.1 hb).1 x hx
      simp [lexLt, this]
  | @cons_cons l₁ l₂ y hs ih =>
    simp only [lexLt, lt_irrefl, if_false]
    exact ih (List.pairwise_cons.1 hb).2 fun e => hne (by rw [e])

theorem Normal.sublist_of_subset {a b : List ℕ} (ha : Normal a) (hb : Normal b)
    (h : a.toFinset ⊆ b.toFinset) : a.Sublist b := by
  have : a = b.filter (· ∈ a) := by
    refine ha.ext (hb.filter _) fun x => ?_
    rw [List.mem_filter]
    simp only [decide_eq_true_eq]
    exact ⟨fun hx => ⟨List.mem_toFinset.1 (h (List.mem_toFinset.2 hx)), hx⟩, fun hx => hx.2⟩
  rw [this]; exact List.filter_sublist

/-- Proper faces precede cofaces lexicographically. -/
theorem lexLt_of_ssubset {a b : List ℕ} (ha : Normal a) (hb : Normal b)
    (h : a.toFinset ⊂ b.toFinset) : lexLt a b = true :=
  lexLt_of_sublist hb (ha.sublist_of_subset hb h.1) fun e => h.2 (by rw [e])

end Aleph
