import Verif.Model.Dowker
import Verif.Spec.Dowker
import Verif.Props.Combine
import Verif.Props.Simplex
import Verif.Lemmas.Rips
import Mathlib.Tactic.Linarith

/-!
# C44: Dowker complexes
-/

namespace Aleph

open Spec Dowker Finset

section

variable {α : Type} [LinearOrder α]

theorem getWeight_le (lo : α) (c : List (ℕ × α)) (r : α) : getWeight lo c ≤ r ↔ lo ≤ r ∧ ∀ v ∈ c, v.2 ≤ r := by
  unfold getWeight
  induction c generalizing lo with
  | nil => simp
  | cons v c ih => rw [List.foldl_cons, ih, max_le_iff, List.forall_mem_cons, and_assoc]

/-- The simplex of a combination. -/
def combKey (c : List (ℕ × α)) : List ℕ := (Simplex.ofRange (c.map (·.1)) ()).vertices

omit [LinearOrder α] in
theorem combKey_toFinset (c : List (ℕ × α)) : (combKey c).toFinset = (c.map (·.1)).toFinset := by
  ext v
  rw [List.mem_toFinset, List.mem_toFinset]
  exact mem_ofRange

/-- What the map from simplices to weights contains after some combinations have been visited. -/
structure Recorded (lo : α) (V : List (ℕ × α) → Prop) (m : List (List ℕ × α)) : Prop where
  nodup : (m.map (·.1)).Nodup
  mem : ∀ s r, (∃ w ≤ r, (s, w) ∈ m) ↔ ∃ c, V c ∧ combKey c = s ∧ getWeight lo c ≤ r

theorem Recorded.step {lo : α} {V : List (ℕ × α) → Prop} {m : List (List ℕ × α)} (h : Recorded lo V m)
    (c : List (ℕ × α)) : Recorded lo (fun d => V d ∨ d = c) (record lo m c).1 := by
  have hR : ∀ s r, (∃ d, (V d ∨ d = c) ∧ combKey d = s ∧ getWeight lo d ≤ r) ↔
      (∃ w ≤ r, (s, w) ∈ m) ∨ combKey c = s ∧ getWeight lo c ≤ r := by
    intro s r
    rw [h.mem]
    constructor
    · rintro ⟨d, hd | rfl, h2⟩
      · exact Or.inl ⟨d, hd, h2⟩
      · exact Or.inr h2
    · rintro (⟨d, hd, h2⟩ | h2)
      · exact ⟨d, Or.inl hd, h2⟩
      · exact ⟨c, Or.inr rfl, h2⟩
  by_cases ha : (m.any fun e => e.1 == combKey c) = true
  · have hrec : (record lo m c).1 = m.map fun e => if e.1 = combKey c then (e.1, min e.2 (getWeight lo c)) else e := by
      have ha' : (m.any fun e => e.1 == (Simplex.ofRange (c.map (·.1)) ()).vertices) = true := ha
      simp only [record, ha', if_true]
      rfl
    rw [List.any_eq_true] at ha
    obtain ⟨⟨k, w0⟩, hk, hkc⟩ := ha
    rw [beq_iff_eq] at hkc
    dsimp only at hkc
    subst hkc
    rw [hrec]
    refine ⟨?_, fun s r => ?_⟩
    · rw [List.map_map]
      convert h.nodup using 2
      funext e
      simp only [Function.comp]
      split <;> rfl
    · rw [hR]
      constructor
      · rintro ⟨w, hw, hm⟩
        rw [List.mem_map] at hm
        obtain ⟨e, he, hs⟩ := hm
        split at hs
        · next h1 =>
          cases hs
          rw [min_le_iff] at hw
          rcases hw with hw | hw
          · exact Or.inl ⟨e.2, hw, he⟩
          · exact Or.inr ⟨h1.symm, hw⟩
        · subst hs
          exact Or.inl ⟨w, hw, he⟩
      · rintro (⟨w, hw, hm⟩ | ⟨rfl, hw⟩)
        · by_cases hs : s = combKey c
          · exact ⟨min w (getWeight lo c), min_le_of_left_le hw, List.mem_map.2 ⟨(s, w), hm, by simp [hs]⟩⟩
          · exact ⟨w, hw, List.mem_map.2 ⟨(s, w), hm, by simp [hs]⟩⟩
        · exact ⟨min w0 (getWeight lo c), min_le_of_right_le hw, List.mem_map.2 ⟨_, hk, by simp⟩⟩
  · have hrec : (record lo m c).1 = m ++ [(combKey c, getWeight lo c)] := by
      have ha' : ¬ (m.any fun e => e.1 == (Simplex.ofRange (c.map (·.1)) ()).vertices) = true := ha
      simp only [record, ha']
      rfl
    rw [hrec]
    refine ⟨?_, fun s r => ?_⟩
    · rw [List.map_append, List.nodup_append]
      refine ⟨h.nodup, by simp, ?_⟩
      rintro a hma b hb rfl
      rw [List.mem_map] at hma
      obtain ⟨e, he, rfl⟩ := hma
      apply ha
      rw [List.any_eq_true]
      exact ⟨e, he, by simpa using hb⟩
    · rw [hR]
      simp only [List.mem_append, List.mem_singleton, Prod.mk.injEq]
      constructor
      · rintro ⟨w, hw, hm | ⟨rfl, rfl⟩⟩
        · exact Or.inl ⟨w, hw, hm⟩
        · exact Or.inr ⟨rfl, hw⟩
      · rintro (⟨w, hw, hm⟩ | ⟨rfl, hw⟩)
        · exact ⟨w, hw, Or.inl hm⟩
        · exact ⟨_, hw, Or.inr ⟨rfl, rfl⟩⟩

theorem Recorded.congr {lo : α} {V V' : List (ℕ × α) → Prop} {m : List (List ℕ × α)} (h : Recorded lo V m)
    (hV : ∀ c, V c ↔ V' c) : Recorded lo V' m := by
  have : V = V' := funext fun c => propext (hV c)
  rwa [← this]

theorem record_snd (lo : α) (m : List (List ℕ × α)) (c : List (ℕ × α)) : (record lo m c).2 = false := by
  unfold record
  dsimp only
  split <;> rfl

theorem Recorded.run {lo : α} (l : List (List (ℕ × α))) : ∀ {V : List (ℕ × α) → Prop} {m : List (List ℕ × α)},
    Recorded lo V m → Recorded lo (fun d => V d ∨ d ∈ l) (runUntil (record lo) m l).1 ∧
      (runUntil (record lo) m l).2 = false := by
  induction l with
  | nil => intro V m h; exact ⟨h.congr (by simp), rfl⟩
  | cons c l ih =>
    intro V m h
    have h1 := h.step c
    have h2 := record_snd lo m c
    rcases hr : record lo m c with ⟨m', b⟩
    rw [hr] at h1 h2
    dsimp only at h1 h2
    subst h2
    simp only [runUntil, hr]
    obtain ⟨h3, h4⟩ := ih h1
    refine ⟨h3.congr fun d => ?_, h4⟩
    rw [List.mem_cons, or_assoc]

theorem sizes_recorded (lo : α) (vs : List (ℕ × α)) : ∀ (d : ℕ) (m : List (List ℕ × α)) (V : List (ℕ × α) → Prop),
    d ≤ vs.length → Recorded lo V m →
      Recorded lo (fun c => V c ∨ c.Sublist vs ∧ 1 ≤ c.length ∧ c.length ≤ d) (sizes lo d vs m) := by
  intro d
  induction d with
  | zero => intro m V _ h; exact h.congr fun c => by constructor; exact Or.inl; rintro (h | h); exact h; omega
  | succ d ih =>
    intro m V hd h
    obtain ⟨l', h1, -, h2⟩ := C59_for_each_combination (record lo) (d + 1) vs hd m
    obtain ⟨h3, h4⟩ := Recorded.run (vs.sublistsLen (d + 1)).reverse h
    have h5 := h2 h4
    subst h5
    unfold sizes
    rw [h1]
    dsimp only
    refine (ih _ _ (by omega) h3).congr fun c => ?_
    rw [List.mem_reverse, List.mem_sublistsLen]
    constructor
    · rintro ((h | h) | h)
      · exact Or.inl h
      · exact Or.inr ⟨h.1, by omega, by omega⟩
      · exact Or.inr ⟨h.1, by omega, by omega⟩
    · rintro (h | h)
      · exact Or.inl (Or.inl h)
      · by_cases hc : c.length = d + 1
        · exact Or.inl (Or.inr ⟨h.1, hc⟩)
        · exact Or.inr ⟨h.1, by omega, by omega⟩

/-- The combinations visited for a base point. -/
def Visited (dimension : ℕ) (map : BaseMap α) (p : ℕ) (c : List (ℕ × α)) : Prop :=
  c.Sublist (map p) ∧ 1 ≤ c.length ∧ (dimension = 0 ∨ c.length ≤ dimension + 1)

theorem weights_fold (lo : α) (dimension : ℕ) (map : BaseMap α) : ∀ (order : List ℕ) (m : List (List ℕ × α))
    (V : List (ℕ × α) → Prop), Recorded lo V m →
    Recorded lo (fun c => V c ∨ ∃ p ∈ order, Visited dimension map p c)
      (order.foldl (fun m p =>
        let vs := map p
        let maxDimension := if dimension = 0 then vs.length else dimension + 1
        sizes lo (min vs.length maxDimension) vs m) m) := by
  intro order
  induction order with
  | nil => intro m V h; exact h.congr (by simp)
  | cons p order ih =>
    intro m V h
    rw [List.foldl_cons]
    refine (ih _ _ (sizes_recorded lo (map p) _ m V (min_le_left _ _) h)).congr fun c => ?_
    rw [List.exists_mem_cons_iff, ← or_assoc]
    refine or_congr_left (or_congr_right ?_)
    unfold Visited
    refine and_congr_right fun hs => and_congr_right fun _ => ?_
    have := hs.length_le
    split <;> rename_i h0
    · simp [h0, this]
    · simp [h0, this]

theorem weights_recorded (lo : α) (dimension : ℕ) (map : BaseMap α) (order : List ℕ) :
    Recorded lo (fun c => ∃ p ∈ order, Visited dimension map p c) (weights lo dimension map order) :=
  (weights_fold lo dimension map order [] (fun _ => False) ⟨by simp, by simp⟩).congr (by simp)

/-- For each list there is a sublist with the same values under `f`, but without repetition. -/
theorem exists_nodup_sublist {β γ : Type} [DecidableEq γ] (f : β → γ) (l : List β) :
    ∃ c : List β, c.Sublist l ∧ (c.map f).Nodup ∧ ∀ y, y ∈ c.map f ↔ y ∈ l.map f := by
  induction l with
  | nil => exact ⟨[], by simp⟩
  | cons a l ih =>
    obtain ⟨c, h1, h2, h3⟩ := ih
    by_cases ha : f a ∈ c.map f
    · refine ⟨c, h1.cons a, h2, fun y => ?_⟩
      rw [h3, List.map_cons, List.mem_cons]
      constructor
      · exact Or.inr
      · rintro (rfl | h)
        · exact (h3 _).1 ha
        · exact h
    · refine ⟨a :: c, h1.cons_cons a, ?_, fun y => ?_⟩
      · rw [List.map_cons, List.nodup_cons]
        exact ⟨ha, h2⟩
      · rw [List.map_cons, List.map_cons, List.mem_cons, List.mem_cons, h3]

/-- Sub-level sets of the map of weights. -/
theorem visited_iff (lo : α) (dimension : ℕ) (map : BaseMap α) (order : List ℕ)
    (horder : ∀ p, map p ≠ [] → p ∈ order) (hlo : ∀ p, ∀ v ∈ map p, lo ≤ v.2) (s : List ℕ) (r : α) :
    (∃ c, (∃ p ∈ order, Visited dimension map p c) ∧ combKey c = s ∧ getWeight lo c ≤ r) ↔
      Normal s ∧ s ≠ [] ∧ (dimension = 0 ∨ s.length ≤ dimension + 1) ∧
        ∃ p, ∀ v ∈ s, ∃ w ≤ r, (v, w) ∈ map p := by
  constructor
  · rintro ⟨c, ⟨p, -, h1, h2, h3⟩, rfl, hw⟩
    have hn : Normal (combKey c) := ofRange_normal _ _
    have hlen : (combKey c).length ≤ c.length := by
      rw [hn.length_eq, combKey_toFinset]
      exact (List.toFinset_card_le _).trans (by simp)
    refine ⟨hn, ?_, h3.imp_right hlen.trans, p, fun v hv => ?_⟩
    · intro he
      cases c with
      | nil => simp at h2
      | cons a c =>
        have : a.1 ∈ combKey (a :: c) := mem_ofRange.2 (by simp)
        rw [he] at this
        simp at this
    · have : v ∈ c.map (·.1) := mem_ofRange.1 hv
      obtain ⟨⟨v', w⟩, he, rfl⟩ := List.mem_map.1 this
      exact ⟨w, ((getWeight_le lo c r).1 hw).2 _ he, h1.subset he⟩
  · rintro ⟨hn, hne, hd, p, hp⟩
    obtain ⟨c, hc1, hc2, hc3⟩ := exists_nodup_sublist (fun e : ℕ × α => e.1)
      ((map p).filter fun e => decide (e.1 ∈ s ∧ e.2 ≤ r))
    have hmem : ∀ v, v ∈ c.map (fun e : ℕ × α => e.1) ↔ v ∈ s := by
      intro v
      rw [hc3, List.mem_map]
      constructor
      · rintro ⟨e, he, rfl⟩
        rw [List.mem_filter, decide_eq_true_iff] at he
        exact he.2.1
      · intro hv
        obtain ⟨w, hw, hm⟩ := hp v hv
        exact ⟨(v, w), by rw [List.mem_filter, decide_eq_true_iff]; exact ⟨hm, hv, hw⟩, rfl⟩
    have hsub : c.Sublist (map p) := hc1.trans List.filter_sublist
    have hlen : c.length = s.length := by
      have : (c.map fun e : ℕ × α => e.1).Perm s := (List.perm_ext_iff_of_nodup hc2 hn.nodup).2 hmem
      rw [← this.length_eq, List.length_map]
    have hpos : 1 ≤ s.length := List.length_pos_iff.2 hne
    have hcne : c ≠ [] := by rw [← List.length_pos_iff]; omega
    have hmap : map p ≠ [] := fun h => hcne (by rw [h] at hsub; simpa using hsub)
    refine ⟨c, ⟨p, horder p hmap, hsub, by omega, by rwa [hlen]⟩, ?_, ?_⟩
    · refine Normal.ext (ofRange_normal _ _) hn fun v => ?_
      rw [← hmem]
      exact mem_ofRange
    · rw [getWeight_le]
      have hle : ∀ e ∈ c, e.2 ≤ r := fun e he => by
        have := hc1.subset he
        rw [List.mem_filter, decide_eq_true_iff] at this
        exact this.2.2
      refine ⟨?_, hle⟩
      obtain ⟨e, he⟩ := List.exists_mem_of_ne_nil c hcne
      exact (hlo p e (hsub.subset he)).trans (hle e he)

theorem data_total : StrictTotalOn (fun s : Simplex α => Normal s.vertices ∧ s.vertices ≠ [])
    (Filtration.data fun a b => decide (a < b)) :=
  C21_data_strict_total _ (by simp) (fun a b c h1 h2 => by
    simp only [decide_eq_true_eq] at *; exact h1.trans h2) fun a b h => by
    simp only [decide_eq_true_eq]; exact lt_or_gt_of_ne h

/-- A list of weighted simplices with given sub-level sets. -/
theorem build_spec (lo : α) (dimension : ℕ) (map : BaseMap α) (order : List ℕ)
    (shuffle : List (List ℕ × α) → List (List ℕ × α)) (hsh : ∀ l, (shuffle l).Perm l)
    (horder : ∀ p, map p ≠ [] → p ∈ order) (hlo : ∀ p, ∀ v ∈ map p, lo ≤ v.2) :
    ∃ K, build lo dimension map order shuffle = some K ∧ WF K ∧ FaceClosed K ∧ FacesFirst K ∧
      (K.Pairwise (fun s t => Filtration.data (fun a b => decide (a < b)) s t = some true) ∧
        K.Pairwise (fun s t => s.data ≤ t.data)) ∧ IsDowker (fun p v w => (v, w) ∈ map p) dimension K := by
  have hrec := weights_recorded lo dimension map order
  set m := weights lo dimension map order with hm
  have key : ∀ s r, (∃ w ≤ r, (s, w) ∈ shuffle m) ↔ Normal s ∧ s ≠ [] ∧ (dimension = 0 ∨ s.length ≤ dimension + 1) ∧
        ∃ p, ∀ v ∈ s, ∃ w ≤ r, (v, w) ∈ map p := by
    intro s r
    rw [← visited_iff lo dimension map order horder hlo s r, ← hrec.mem]
    simp only [(hsh m).mem_iff]
  have hnd : ((shuffle m).map (·.1)).Nodup := ((hsh m).map _).nodup_iff.2 hrec.nodup
  set K0 : Complex α := (shuffle m).map fun e => ⟨e.1, e.2⟩ with hK0
  have hv0 : K0.map (·.vertices) = (shuffle m).map (·.1) := by rw [hK0, List.map_map]; rfl
  have hmem0 : ∀ s : Simplex α, s ∈ K0 ↔ (s.vertices, s.data) ∈ shuffle m := by
    intro s
    rw [hK0, List.mem_map]
    constructor
    · rintro ⟨e, he, rfl⟩; exact he
    · intro h; exact ⟨_, h, rfl⟩
  have hwf : WF K0 := by
    refine ⟨fun s hs => ?_, fun s hs => ?_, by rw [hv0]; exact hnd⟩
    · exact ((key s.vertices s.data).1 ⟨_, le_rfl, (hmem0 s).1 hs⟩).1
    · exact ((key s.vertices s.data).1 ⟨_, le_rfl, (hmem0 s).1 hs⟩).2.1
  have hins : Complex.insertRange [] K0 = (K0, false) := by
    have := insertRange_nodup [] K0 hwf.nonempty (by rw [List.nil_append, hv0]; exact hnd)
    rwa [List.nil_append] at this
  have hperm := sort_perm K0 (asLt (Filtration.data fun a b => decide (a < b)))
  have hwf' : WF (K0.sort (asLt (Filtration.data fun a b => decide (a < b)))) := hwf.perm hperm
  -- sub-level sets in terms of vertex sets
  have hsub : ∀ s ∈ K0, ∀ r, s.data ≤ r ↔ ∃ p, ∀ v ∈ s.vset, ∃ w ≤ r, (v, w) ∈ map p := by
    intro s hs r
    have h1 := (hmem0 s).1 hs
    have h2 := (key s.vertices s.data).1 ⟨_, le_rfl, h1⟩
    have h3 : (∃ w ≤ r, (s.vertices, w) ∈ shuffle m) ↔ s.data ≤ r := by
      constructor
      · rintro ⟨w, hw, hm'⟩
        have := List.inj_on_of_nodup_map hnd h1 hm' rfl
        rw [Prod.mk.injEq] at this
        rw [this.2]; exact hw
      · intro h; exact ⟨_, h, h1⟩
    rw [← h3, key]
    simp only [h2.1, h2.2.1, h2.2.2.1, true_and, ne_eq, not_false_eq_true, Simplex.vset, List.mem_toFinset]
  have hsimp : ∀ σ : Finset ℕ, (∃ s ∈ K0, s.vset = σ) ↔
      σ.Nonempty ∧ (dimension = 0 ∨ #σ ≤ dimension + 1) ∧ ∃ p, ∀ v ∈ σ, ∃ w, (v, w) ∈ map p := by
    intro σ
    constructor
    · rintro ⟨s, hs, rfl⟩
      have h2 := (key s.vertices s.data).1 ⟨_, le_rfl, (hmem0 s).1 hs⟩
      refine ⟨hwf.vset_nonempty hs, ?_, ?_⟩
      · have := h2.2.2.1
        rwa [h2.1.length_eq] at this
      · obtain ⟨p, hp⟩ := h2.2.2.2
        refine ⟨p, fun v hv => ?_⟩
        obtain ⟨w, -, h⟩ := hp v (List.mem_toFinset.1 hv)
        exact ⟨w, h⟩
    · rintro ⟨hne, hd, p, hp⟩
      set vs := (Simplex.ofRange σ.toList ()).vertices with hvs
      have hvn : Normal vs := ofRange_normal _ _
      have hvm : ∀ v, v ∈ vs ↔ v ∈ σ := fun v => mem_ofRange.trans Finset.mem_toList
      have hvσ : vs.toFinset = σ := by ext v; rw [List.mem_toFinset, hvm]
      have : Nonempty α := ⟨lo⟩
      choose! wt hwt using hp
      obtain ⟨b, hb⟩ : ∃ b, ∀ v ∈ σ, wt v ≤ b := by
        obtain ⟨v0, hv0⟩ := hne
        exact ⟨σ.sup' ⟨v0, hv0⟩ wt, fun v hv => Finset.le_sup' wt hv⟩
      obtain ⟨w, -, hw⟩ := (key vs b).2 ⟨hvn, by
        obtain ⟨v0, hv0⟩ := hne
        exact List.ne_nil_of_mem ((hvm v0).2 hv0), by rw [hvn.length_eq, hvσ]; exact hd, p, fun v hv =>
          ⟨wt v, hb v ((hvm v).1 hv), hwt v ((hvm v).1 hv)⟩⟩
      exact ⟨⟨vs, w⟩, (hmem0 _).2 hw, hvσ⟩
  have hmono : Spec.Monotone K0 := by
    intro s hs t ht hst
    obtain ⟨p, hp⟩ := (hsub t ht t.data).1 le_rfl
    exact (hsub s hs t.data).2 ⟨p, fun v hv => hp v (hst hv)⟩
  have hclosed : FaceClosed K0 := by
    intro s hs t hts hne
    obtain ⟨-, hd, p, hp⟩ := (hsimp s.vset).1 ⟨s, hs, rfl⟩
    exact (hsimp t).2 ⟨hne, hd.imp_right (Finset.card_le_card hts).trans, p, fun v hv => hp v (hts hv)⟩
  have hsorted := sort_pairwise hwf data_total fun s hs => ⟨hwf.normal s hs, hwf.nonempty s hs⟩
  refine ⟨K0.sort (asLt (Filtration.data fun a b => decide (a < b))), ?_, hwf', ?_, C21_data_less K0 hwf hmono,
    ⟨hsorted, ?_⟩, ?_, ?_⟩
  · unfold build
    rw [← hm, ← hK0, hins]
  · intro s hs t hts hne
    obtain ⟨u, hu, he⟩ := hclosed s (hperm.mem_iff.1 hs) t hts hne
    exact ⟨u, hperm.mem_iff.2 hu, he⟩
  · refine hsorted.imp ?_
    intro s t h
    unfold Filtration.data at h
    split at h
    · next he => exact he.le
    · simp only [Option.some.injEq, decide_eq_true_eq] at h
      exact h.le
  · intro σ
    rw [← hsimp]
    simp only [hperm.mem_iff]
  · intro s hs r
    exact hsub s (hperm.mem_iff.1 hs) r

omit [LinearOrder α] in
theorem push_fold {β : Type} (k : β → ℕ) (f : β → ℕ × α) : ∀ (l : List β) (m : BaseMap α) (p : ℕ),
    l.foldl (fun m x => m.push (k x) (f x)) m p = m p ++ (l.filter fun x => k x = p).map f := by
  intro l
  induction l with
  | nil => intro m p; simp
  | cons x l ih =>
    intro m p
    rw [List.foldl_cons, ih, List.filter_cons]
    unfold BaseMap.push
    by_cases h : k x = p
    · subst h; simp
    · have h' : ¬ p = k x := fun e => h e.symm
      simp [h, h']

omit [LinearOrder α] in
theorem mem_sourceMap {pairs : List (Pair α)} {p v : ℕ} {w : α} : (v, w) ∈ sourceMap pairs p ↔ ⟨p, v, w⟩ ∈ pairs := by
  unfold sourceMap
  rw [push_fold (fun x : Pair α => x.p) (fun x => (x.q, x.w)), List.nil_append, List.mem_map]
  constructor
  · rintro ⟨x, hx, he⟩
    rw [List.mem_filter, decide_eq_true_iff] at hx
    cases he
    rw [← hx.2]
    exact hx.1
  · intro h
    exact ⟨⟨p, v, w⟩, by rw [List.mem_filter, decide_eq_true_iff]; exact ⟨h, rfl⟩, rfl⟩

omit [LinearOrder α] in
theorem mem_sinkMap {pairs : List (Pair α)} {q v : ℕ} {w : α} : (v, w) ∈ sinkMap pairs q ↔ ⟨v, q, w⟩ ∈ pairs := by
  unfold sinkMap
  rw [push_fold (fun x : Pair α => x.q) (fun x => (x.p, x.w)), List.nil_append, List.mem_map]
  constructor
  · rintro ⟨x, hx, he⟩
    rw [List.mem_filter, decide_eq_true_iff] at hx
    cases he
    rw [← hx.2]
    exact hx.1
  · intro h
    exact ⟨⟨v, q, w⟩, by rw [List.mem_filter, decide_eq_true_iff]; exact ⟨h, rfl⟩, rfl⟩

theorem sink_spec (lo : α) (pairs : List (Pair α)) (hlo : ∀ x ∈ pairs, lo ≤ x.w) (dimension : ℕ) (order : List ℕ)
    (shuffle : List (List ℕ × α) → List (List ℕ × α)) (ho : IsKeyOrder (·.q) pairs order)
    (hs : ∀ l, (shuffle l).Perm l) :
    ∃ K, build lo dimension (sinkMap pairs) order shuffle = some K ∧ WF K ∧ FaceClosed K ∧ FacesFirst K ∧
      (K.Pairwise (fun s t => Filtration.data (fun a b => decide (a < b)) s t = some true) ∧
        K.Pairwise (fun s t => s.data ≤ t.data)) ∧ IsDowker (fun q v w => ⟨v, q, w⟩ ∈ pairs) dimension K := by
  have := build_spec lo dimension (sinkMap pairs) order shuffle hs (fun p hp => by
      obtain ⟨⟨v, w⟩, h⟩ := List.exists_mem_of_ne_nil _ hp
      exact (ho.2 p).2 ⟨_, mem_sinkMap.1 h, rfl⟩) fun p v hv => hlo _ ((mem_sinkMap (v := v.1) (w := v.2)).1 hv)
  simpa only [mem_sinkMap] using this

theorem source_spec (lo : α) (pairs : List (Pair α)) (hlo : ∀ x ∈ pairs, lo ≤ x.w) (dimension : ℕ) (order : List ℕ)
    (shuffle : List (List ℕ × α) → List (List ℕ × α)) (ho : IsKeyOrder (·.p) pairs order)
    (hs : ∀ l, (shuffle l).Perm l) :
    ∃ K, build lo dimension (sourceMap pairs) order shuffle = some K ∧ WF K ∧ FaceClosed K ∧ FacesFirst K ∧
      (K.Pairwise (fun s t => Filtration.data (fun a b => decide (a < b)) s t = some true) ∧
        K.Pairwise (fun s t => s.data ≤ t.data)) ∧ IsDowker (fun p v w => ⟨p, v, w⟩ ∈ pairs) dimension K := by
  have := build_spec lo dimension (sourceMap pairs) order shuffle hs (fun p hp => by
      obtain ⟨⟨v, w⟩, h⟩ := List.exists_mem_of_ne_nil _ hp
      exact (ho.2 p).2 ⟨_, mem_sourceMap.1 h, rfl⟩) fun p v hv => hlo _ ((mem_sourceMap (v := v.1) (w := v.2)).1 hv)
  simpa only [mem_sourceMap] using this

/-- C44. For all sets of admissible pairs, the two complexes are sorted filtrations: the simplices of the source complex
are the sets of vertices with a common base point `p`, i.e. with pairs `(p, v)`; those of the sink complex are the sets
of vertices with pairs `(v, q)`.  Weights are minima over base points of the maximal weights of the pairs.  This does
not depend on the order of the hash maps. -/
theorem C44_sink_source (lo : α) (pairs : List (Pair α)) (hlo : ∀ x ∈ pairs, lo ≤ x.w) (dimension : ℕ)
    (order order' : List ℕ) (shuffle shuffle' : List (List ℕ × α) → List (List ℕ × α))
    (ho : IsKeyOrder (·.p) pairs order) (ho' : IsKeyOrder (·.q) pairs order')
    (hs : ∀ l, (shuffle l).Perm l) (hs' : ∀ l, (shuffle' l).Perm l) :
    ∃ K L, sinkSource lo pairs dimension order order' shuffle shuffle' = some (K, L) ∧
      (WF K ∧ FaceClosed K ∧ FacesFirst K ∧ K.Pairwise (fun s t => s.data ≤ t.data) ∧
        IsDowker (fun p v w => ⟨p, v, w⟩ ∈ pairs) dimension K) ∧
      (WF L ∧ FaceClosed L ∧ FacesFirst L ∧ L.Pairwise (fun s t => s.data ≤ t.data) ∧
        IsDowker (fun q v w => ⟨v, q, w⟩ ∈ pairs) dimension L) := by
  obtain ⟨K, h1, h2, h3, h4, h5, h6⟩ := source_spec lo pairs hlo dimension order shuffle ho hs
  obtain ⟨L, h1', h2', h3', h4', h5', h6'⟩ := sink_spec lo pairs hlo dimension order' shuffle' ho' hs'
  exact ⟨K, L, by simp only [sinkSource, h1, h1'], ⟨h2, h3, h4, h5.2, h6⟩, h2', h3', h4', h5'.2, h6'⟩

/-- A complex sorted by data, dimension and vertices is determined by its weighted simplices. -/
theorem IsDowker.unique {rel : ℕ → ℕ → α → Prop} {dimension : ℕ} {K L : Complex α} (hK : WF K) (hL : WF L)
    (h : IsDowker rel dimension K) (h' : IsDowker rel dimension L) : K.Perm L := by
  have key : ∀ {K L : Complex α}, WF K → WF L → IsDowker rel dimension K → IsDowker rel dimension L →
      ∀ s ∈ K, s ∈ L := by
    intro K L hK hL h h' s hs
    obtain ⟨t, ht, he⟩ := (h'.1 s.vset).2 ((h.1 s.vset).1 ⟨s, hs, rfl⟩)
    have hv : t.vertices = s.vertices := ((hL.normal t ht).eq_iff (hK.normal s hs)).2 he
    have hd : t.data = s.data := by
      apply le_antisymm
      · rw [h'.2 t ht, he, ← h.2 s hs]
      · rw [h.2 s hs, ← he, ← h'.2 t ht]
    have : t = s := by
      cases t; cases s
      simp only at hv hd
      rw [hv, hd]
    rwa [← this]
  exact (List.perm_ext_iff_of_nodup hK.nodup hL.nodup).2 fun s => ⟨key hK hL h h' s, key hL hK h' h s⟩

theorem sorted_unique {K L : Complex α} (hK : WF K) (hp : K.Perm L)
    (h : K.Pairwise fun s t => Filtration.data (fun a b => decide (a < b)) s t = some true)
    (h' : L.Pairwise fun s t => Filtration.data (fun a b => decide (a < b)) s t = some true) : K = L := by
  refine hp.eq_of_pairwise (fun s t hs ht h1 h2 => ?_) h h'
  have hs' : Normal s.vertices ∧ s.vertices ≠ [] := ⟨hK.normal s hs, hK.nonempty s hs⟩
  have ht' : Normal t.vertices ∧ t.vertices ≠ [] :=
    ⟨hK.normal t (hp.mem_iff.2 ht), hK.nonempty t (hp.mem_iff.2 ht)⟩
  exact absurd h2 (data_total.asymm hs' ht' h1)

/-- C44. The order of the hash maps has no influence on the result. -/
theorem C44_order_independent (lo : α) (pairs : List (Pair α)) (hlo : ∀ x ∈ pairs, lo ≤ x.w) (dimension : ℕ)
    (o₁ o₂ o₁' o₂' : List ℕ) (f₁ f₂ f₁' f₂' : List (List ℕ × α) → List (List ℕ × α))
    (h₁ : IsKeyOrder (·.p) pairs o₁) (h₁' : IsKeyOrder (·.q) pairs o₁')
    (h₂ : IsKeyOrder (·.p) pairs o₂) (h₂' : IsKeyOrder (·.q) pairs o₂')
    (hf₁ : ∀ l, (f₁ l).Perm l) (hf₁' : ∀ l, (f₁' l).Perm l) (hf₂ : ∀ l, (f₂ l).Perm l) (hf₂' : ∀ l, (f₂' l).Perm l) :
    sinkSource lo pairs dimension o₁ o₁' f₁ f₁' = sinkSource lo pairs dimension o₂ o₂' f₂ f₂' := by
  obtain ⟨K, a1, a2, -, -, a3, a4⟩ := source_spec lo pairs hlo dimension o₁ f₁ h₁ hf₁
  obtain ⟨K', b1, b2, -, -, b3, b4⟩ := source_spec lo pairs hlo dimension o₂ f₂ h₂ hf₂
  obtain ⟨L, c1, c2, -, -, c3, c4⟩ := sink_spec lo pairs hlo dimension o₁' f₁' h₁' hf₁'
  obtain ⟨L', d1, d2, -, -, d3, d4⟩ := sink_spec lo pairs hlo dimension o₂' f₂' h₂' hf₂'
  have e1 : K = K' := sorted_unique a2 (IsDowker.unique a2 b2 a4 b4) a3.1 b3.1
  have e2 : L = L' := sorted_unique c2 (IsDowker.unique c2 d2 c4 d4) c3.1 d3.1
  simp only [sinkSource, a1, b1, c1, d1, e1, e2]

/-- Two base points sharing a vertex. -/
example : (sinkSource 0 [⟨0, 1, 3⟩, ⟨0, 2, 1⟩, ⟨3, 1, 2⟩, ⟨3, 2, 2⟩] 0 [0, 3] [1, 2] id id).map
    (fun r => (r.1.map fun s => (s.vertices, s.data), r.2.map fun s => (s.vertices, s.data))) =
    some ([([2], 1), ([1], 2), ([2, 1], 2)], [([0], 1), ([3], 2), ([3, 0], (2 : ℕ))]) := by decide +kernel

example : IsKeyOrder (fun x : Pair ℕ => x.p) [⟨0, 1, 3⟩, ⟨0, 2, 1⟩, ⟨3, 1, 2⟩, ⟨3, 2, 2⟩] [3, 0] := by
  refine ⟨by decide, fun p => ?_⟩
  simp
  omega

end

/-! ### Admissible pairs -/

section

variable {α : Type} [LinearOrder α] [AddCommMonoid α]

omit [LinearOrder α] in
theorem walk_congr {E E' : ℕ → ℕ → α → Prop} (h : ∀ i j w, E i j w ↔ E' i j w) (i j : ℕ) (l : α) :
    Walk E i j l ↔ Walk E' i j l := by
  have : E = E' := by funext i j w; exact propext (h i j w)
  rw [this]

/-- C44. The admissible pairs: all pairs of vertices connected by a walk along positive entries of the matrix whose length
does not exceed the threshold; the weight is the minimal length. -/
theorem C44_admissible_pairs (apsp : ℕ → (ℕ → ℕ → Option α) → ℕ → ℕ → WithTop α) (ha : IsApsp apsp) (n : ℕ)
    (W : ℕ → ℕ → α) (R : α) (i j : ℕ) (w : α) :
    ⟨i, j, w⟩ ∈ admissiblePairs apsp n W R ↔ i < n ∧ j < n ∧ w ≤ R ∧
      IsLeast {l | Walk (fun i j w => i < n ∧ j < n ∧ 0 < w ∧ w = W i j) i j l} w := by
  have hg : ∀ i j w, graph n W i j = some w ↔ i < n ∧ j < n ∧ 0 < w ∧ w = W i j := by
    intro i j w
    unfold graph
    split
    · next h =>
      rw [Option.some.injEq]
      constructor
      · rintro rfl; exact ⟨h.1, h.2.1, h.2.2, rfl⟩
      · rintro ⟨-, -, -, h⟩; exact h.symm
    · next h =>
      refine iff_of_false (by simp) ?_
      rintro ⟨h1, h2, h3, rfl⟩
      exact h ⟨h1, h2, h3⟩
  have hset : {l | Walk (fun i j w => i < n ∧ j < n ∧ 0 < w ∧ w = W i j) i j l} =
      {l | Walk (fun i j w => graph n W i j = some w) i j l} := by
    ext l
    exact walk_congr (fun i j w => (hg i j w).symm) i j l
  rw [hset]
  unfold admissiblePairs
  simp only [List.mem_flatMap, List.mem_filterMap, List.mem_range]
  have key : ∀ i < n, ∀ j < n, ∀ l : α, apsp n (graph n W) i j = l ↔
      IsLeast {l | Walk (fun i j w => graph n W i j = some w) i j l} l := fun i hi j hj =>
    (ha n (graph n W) (fun i j w h => ⟨((hg i j w).1 h).1, ((hg i j w).1 h).2.1, ((hg i j w).1 h).2.2.1⟩) i hi j hj).2
  constructor
  · rintro ⟨i', hi, j', hj, h⟩
    cases hd : apsp n (graph n W) i' j' with
    | top => rw [hd] at h; cases h
    | coe d =>
      rw [hd] at h
      change (if d ≤ R then some _ else none) = _ at h
      split at h
      · next hle =>
        cases h
        exact ⟨hi, hj, hle, (key i hi j hj w).1 hd⟩
      · simp at h
  · rintro ⟨hi, hj, hle, hl⟩
    refine ⟨i, hi, j, hj, ?_⟩
    have : apsp n (graph n W) i j = some w := (key i hi j hj w).2 hl
    rw [this]
    simp [hle]

theorem Spec.Walk.nonneg [IsOrderedAddMonoid α] {E : ℕ → ℕ → α → Prop} (hE : ∀ i j w, E i j w → 0 ≤ w) {i j : ℕ} {l : α}
    (h : Walk E i j l) : 0 ≤ l := by
  induction h with
  | nil i => exact le_rfl
  | cons h _ ih => exact add_nonneg (hE _ _ _ h) ih

/-- C44. The source complex of a matrix: the sets of vertices reachable from a common base point within the threshold. -/
theorem C44_source [IsOrderedAddMonoid α] (apsp : ℕ → (ℕ → ℕ → Option α) → ℕ → ℕ → WithTop α) (ha : IsApsp apsp) (lo : α) (hlo : lo ≤ 0)
    (n : ℕ) (W : ℕ → ℕ → α) (epsilon : α) (dimension : ℕ) (order : List ℕ)
    (shuffle : List (List ℕ × α) → List (List ℕ × α))
    (ho : IsKeyOrder (·.p) (admissiblePairs apsp n W epsilon) order) (hs : ∀ l, (shuffle l).Perm l) :
    ∃ K, source apsp lo n W epsilon dimension order shuffle = some K ∧ WF K ∧ FaceClosed K ∧ FacesFirst K ∧
      K.Pairwise (fun s t => s.data ≤ t.data) ∧
      IsDowker (fun p v w => p < n ∧ v < n ∧ w ≤ epsilon ∧
        IsLeast {l | Walk (fun i j w => i < n ∧ j < n ∧ 0 < w ∧ w = W i j) p v l} w) dimension K := by
  obtain ⟨K, h1, h2, h3, h4, h5, h6⟩ := source_spec lo (admissiblePairs apsp n W epsilon) (fun x hx =>
      hlo.trans (((C44_admissible_pairs apsp ha n W epsilon x.p x.q x.w).1 hx).2.2.2.1.nonneg fun i j w h => h.2.2.1.le))
    dimension order shuffle ho hs
  refine ⟨K, h1, h2, h3, h4, h5.2, ?_⟩
  simpa only [C44_admissible_pairs apsp ha] using h6

end

/-! ### The contract of the library function can be met -/

section

variable {α : Type} [LinearOrder α] [AddCommMonoid α]

/-- Walks with all inner vertices below `k`. -/
inductive WalkBelow (E : ℕ → ℕ → α → Prop) (k : ℕ) : ℕ → ℕ → α → Prop
  | nil (i) : WalkBelow E k i i 0
  | edge {i j w} : E i j w → WalkBelow E k i j w
  | cons {i m j w l} : E i m w → m < k → WalkBelow E k m j l → WalkBelow E k i j (w + l)

/-- A missing edge has infinite weight. -/
def edgeWeight : Option α → WithTop α
  | none => ⊤
  | some w => w

/-- Lengths of shortest paths by the recursion of Floyd and Warshall. -/
def fw (g : ℕ → ℕ → Option α) : ℕ → ℕ → ℕ → WithTop α
  | 0, i, j => if i = j then 0 else edgeWeight (g i j)
  | k + 1, i, j => min (fw g k i j) (fw g k i k + fw g k k j)

omit [LinearOrder α] in
theorem WalkBelow.walk {E : ℕ → ℕ → α → Prop} {k i j : ℕ} {l : α} (h : WalkBelow E k i j l) : Walk E i j l := by
  induction h with
  | nil i => exact .nil i
  | edge h => have := Walk.cons h (.nil _); rwa [add_zero] at this
  | cons h _ _ ih => exact .cons h ih

omit [LinearOrder α] in
theorem Spec.Walk.toBelow {E : ℕ → ℕ → α → Prop} {n : ℕ} (hE : ∀ i j w, E i j w → j < n) {i j : ℕ} {l : α}
    (h : Walk E i j l) : WalkBelow E n i j l := by
  induction h with
  | nil i => exact .nil i
  | cons h _ ih => exact .cons h (hE _ _ _ h) ih

omit [LinearOrder α] in
theorem WalkBelow.mono {E : ℕ → ℕ → α → Prop} {k k' i j : ℕ} {l : α} (h : WalkBelow E k i j l) (hk : k ≤ k') :
    WalkBelow E k' i j l := by
  induction h with
  | nil i => exact .nil i
  | edge h => exact .edge h
  | cons h hm _ ih => exact .cons h (by omega) ih

omit [LinearOrder α] in
theorem WalkBelow.append {E : ℕ → ℕ → α → Prop} {k i m j : ℕ} {l l' : α} (h : WalkBelow E k i m l) (hm : m < k)
    (h' : WalkBelow E k m j l') : WalkBelow E k i j (l + l') := by
  induction h with
  | nil i => rwa [zero_add]
  | edge h => exact .cons h hm h'
  | cons h hm' _ ih => rw [add_assoc]; exact .cons h hm' (ih hm h')

variable [IsOrderedAddMonoid α]

theorem WalkBelow.nonneg {E : ℕ → ℕ → α → Prop} (hE : ∀ i j w, E i j w → 0 ≤ w) {k i j : ℕ} {l : α}
    (h : WalkBelow E k i j l) : 0 ≤ l := by
  induction h with
  | nil i => exact le_rfl
  | edge h => exact hE _ _ _ h
  | cons h _ _ ih => exact add_nonneg (hE _ _ _ h) ih

theorem WalkBelow.split {E : ℕ → ℕ → α → Prop} (hE : ∀ i j w, E i j w → 0 ≤ w) {k i j : ℕ} {l : α}
    (h : WalkBelow E (k + 1) i j l) : (∃ l' ≤ l, WalkBelow E k i j l') ∨
      ∃ a b, a + b ≤ l ∧ WalkBelow E k i k a ∧ WalkBelow E k k j b := by
  induction h with
  | nil i => exact Or.inl ⟨0, le_rfl, .nil i⟩
  | edge h => exact Or.inl ⟨_, le_rfl, .edge h⟩
  | @cons i m j w l h hm _ ih =>
    rcases Nat.lt_succ_iff_lt_or_eq.1 hm with hm | rfl
    · rcases ih with ⟨l', h1, h2⟩ | ⟨a, b, h1, h2, h3⟩
      · exact Or.inl ⟨w + l', by gcongr, .cons h hm h2⟩
      · exact Or.inr ⟨w + a, b, by rw [add_assoc]; gcongr, .cons h hm h2, h3⟩
    · rcases ih with ⟨l', h1, h2⟩ | ⟨a, b, h1, h2, h3⟩
      · exact Or.inr ⟨w, l', by gcongr, .edge h, h2⟩
      · exact Or.inr ⟨w, b, by
          have := h2.nonneg hE
          calc w + b ≤ w + (a + b) := by gcongr; exact le_add_of_nonneg_left this
            _ ≤ w + l := by gcongr, .edge h, h3⟩

theorem fw_spec {g : ℕ → ℕ → Option α} (hg : ∀ i j w, g i j = some w → 0 < w) : ∀ (k i j : ℕ),
    (∀ l : α, fw g k i j = l → WalkBelow (fun i j w => g i j = some w) k i j l) ∧
    ∀ l : α, WalkBelow (fun i j w => g i j = some w) k i j l → fw g k i j ≤ l := by
  intro k
  have hE : ∀ i j w, g i j = some w → 0 ≤ w := fun i j w h => (hg i j w h).le
  induction k with
  | zero =>
    intro i j
    constructor
    · intro l h
      unfold fw at h
      split at h
      · next he =>
        subst he
        have h' : ((0 : α) : WithTop α) = (l : WithTop α) := h
        rw [← WithTop.coe_injective h']
        exact .nil i
      · cases he : g i j with
        | none => rw [he] at h; simp [edgeWeight] at h
        | some w =>
          rw [he] at h
          simp only [edgeWeight, WithTop.coe_inj] at h
          subst h
          exact .edge he
    · intro l h
      unfold fw
      cases h with
      | nil => simp
      | edge h =>
        split
        · have : ((0 : α) : WithTop α) ≤ (l : WithTop α) := by
            rw [WithTop.coe_le_coe]; exact hE _ _ _ h
          exact this
        · rw [h]; exact le_rfl
      | cons h hm => omega
  | succ k ih =>
    intro i j
    constructor
    · intro l h
      unfold fw at h
      rcases min_choice (fw g k i j) (fw g k i k + fw g k k j) with h1 | h1
      · rw [h1] at h
        exact ((ih i j).1 l h).mono (by omega)
      · rw [h1, WithTop.add_eq_coe] at h
        obtain ⟨a, b, ha, hb, rfl⟩ := h
        exact (((ih i k).1 a ha.symm).mono (by omega)).append (by omega) (((ih k j).1 b hb.symm).mono (by omega))
    · intro l h
      unfold fw
      rcases h.split hE with ⟨l', h1, h2⟩ | ⟨a, b, h1, h2, h3⟩
      · exact (min_le_left _ _).trans (((ih i j).2 l' h2).trans (WithTop.coe_le_coe.2 h1))
      · refine (min_le_right _ _).trans ?_
        calc fw g k i k + fw g k k j ≤ (a : WithTop α) + b := add_le_add ((ih i k).2 a h2) ((ih k j).2 b h3)
          _ = ((a + b : α) : WithTop α) := by rw [WithTop.coe_add]
          _ ≤ l := WithTop.coe_le_coe.2 h1

/-- The contract assumed of the library can be met. -/
theorem exists_apsp : IsApsp (fun n (g : ℕ → ℕ → Option α) => fw g n) := by
  intro n g hg i hi j hj
  obtain ⟨h1, h2⟩ := fw_spec (fun i j w h => (hg i j w h).2.2) n i j
  have hb : ∀ l, Walk (fun i j w => g i j = some w) i j l → WalkBelow (fun i j w => g i j = some w) n i j l :=
    fun l h => h.toBelow fun i j w h => (hg i j w h).2.1
  have hleast : ∀ l : α, fw g n i j = l → IsLeast {l | Walk (fun i j w => g i j = some w) i j l} l := by
    intro l hl
    refine ⟨(h1 l hl).walk, fun l' hl' => ?_⟩
    have := h2 l' (hb l' hl')
    rwa [hl, WithTop.coe_le_coe] at this
  refine ⟨⟨?_, ?_⟩, fun l => ⟨hleast l, fun h => ?_⟩⟩
  · rintro h ⟨l, hl⟩
    have := h2 l (hb l hl)
    dsimp only at h
    rw [h, top_le_iff] at this
    exact WithTop.coe_ne_top this
  · intro h
    by_contra hne
    obtain ⟨l, hl⟩ := WithTop.ne_top_iff_exists.1 hne
    exact h ⟨l, (h1 l hl.symm).walk⟩
  · have hle := h2 l (hb l h.1)
    have hne : fw g n i j ≠ ⊤ := fun he => by
      rw [he, top_le_iff] at hle
      exact WithTop.coe_ne_top hle
    obtain ⟨l', hl'⟩ := WithTop.ne_top_iff_exists.1 hne
    have := (hleast l' hl'.symm).unique h
    dsimp only
    rw [← hl', this]

/-- A directed path with three vertices; the base point `0` reaches all of them within the threshold. -/
example : (source (fun n g => fw g n) 0 3 (fun i j => if j = i + 1 then 2 else 0) 4 0 [0, 1, 2] id).map
    (·.map fun s => (s.vertices, s.data)) =
    some [([0], 0), ([1], 0), ([2], 0), ([1, 0], 2), ([2, 1], 2), ([2, 0], 4), ([2, 1, 0], (4 : ℕ))] := by
  decide +kernel

end

end Aleph
