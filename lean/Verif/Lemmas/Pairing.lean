import Verif.Lemmas.Reduction

/-! Reading the pairing off a reduced matrix. -/

namespace Aleph

open Spec

/-- The test of `pairStep` for an empty column. -/
def creatorPred (B : BM) (inc : Bool) (j : ℕ) : Bool :=
  (!B.dual && B.dim j != B.rep.dimension) || (B.dual && B.dim j != 0) || inc

/-- What the loop of `readPairing` has collected after `m` columns. -/
structure PairInv (B : BM) (inc : Bool) (max m : ℕ) (st : PairState) : Prop where
  pairing : ∀ uv, uv ∈ st.pairing ↔ ∃ j < m, ∃ i, (B.col j).getLast? = some i ∧
    uv = reportPair B.numColumns B.dual i j ∧ admissible B.numColumns max uv.1 = true
  pairingNodup : st.pairing.Nodup
  creators : ∀ c, c ∈ st.creators ↔ c < m ∧ (B.col c).getLast? = none ∧
    creatorPred B inc c = true ∧ ∀ j < m, c < j → (B.col j).getLast? ≠ some c
  creatorsNodup : st.creators.Nodup
  destroyers : ∀ v, v ∈ st.destroyers ↔ ∃ j < m, ∃ i, (B.col j).getLast? = some i ∧
    v = (reportPair B.numColumns B.dual i j).2

theorem reportPair_inj {n : ℕ} {dual : Bool} {i j i' j' : ℕ} (hj : j < n) (hj' : j' < n)
    (hi : i < n) (hi' : i' < n)
    (h : reportPair n dual i j = reportPair n dual i' j') : i = i' ∧ j = j' := by
  unfold reportPair at h
  cases dual
  · simpa using h
  · simp only [if_true, Prod.mk.injEq] at h
    omega

theorem pairInv_step {B : BM} {inc : Bool} {max : ℕ}
    (hb : ∀ j < B.numColumns, ∀ i, (B.col j).getLast? = some i → i < B.numColumns) {m : ℕ} (hm : m < B.numColumns)
    {st : PairState} (h : PairInv B inc max m st) :
    PairInv B inc max (m + 1) (pairStep B inc max st m) := by
  have ex : ∀ {P : ℕ → Prop}, (∃ j < m + 1, P j) ↔ (∃ j < m, P j) ∨ P m := by
    intro P
    constructor
    · rintro ⟨j, hj, hp⟩
      rcases Nat.lt_succ_iff_lt_or_eq.1 hj with h | rfl
      · exact Or.inl ⟨j, h, hp⟩
      · exact Or.inr hp
    · rintro (⟨j, hj, hp⟩ | hp)
      · exact ⟨j, Nat.lt_succ_of_lt hj, hp⟩
      · exact ⟨m, Nat.lt_succ_self m, hp⟩
  have fa : ∀ {P : ℕ → Prop}, (∀ j < m + 1, P j) ↔ (∀ j < m, P j) ∧ P m := by
    intro P
    constructor
    · intro h; exact ⟨fun j hj => h j (Nat.lt_succ_of_lt hj), h m (Nat.lt_succ_self m)⟩
    · rintro ⟨h1, h2⟩ j hj
      rcases Nat.lt_succ_iff_lt_or_eq.1 hj with h | rfl
      · exact h1 j h
      · exact h2
  unfold pairStep
  cases hl : (B.col m).getLast? with
  | some i =>
    have him := hb m hm i hl
    refine ⟨?_, ?_, ?_, ?_, ?_⟩
    · intro uv
      rw [ex, ← h.pairing]
      simp only [hl, Option.some.injEq, exists_eq_left']
      split_ifs with ha
      · rw [List.mem_append, List.mem_singleton]
        refine or_congr Iff.rfl ?_
        constructor
        · rintro rfl; exact ⟨rfl, ha⟩
        · exact fun h => h.1
      · constructor
        · exact Or.inl
        · rintro (h | ⟨rfl, h'⟩)
          · exact h
          · exact absurd h' ha
    · simp only
      split_ifs with ha
      · rw [List.nodup_append]
        refine ⟨h.pairingNodup, List.nodup_singleton _, ?_⟩
        intro a ha' b hb
        rw [List.mem_singleton] at hb
        subst hb
        rintro rfl
        obtain ⟨j, hj, i', h1, h2, _⟩ := (h.pairing _).1 ha'
        have := hb j (by omega) i' h1
        have := (reportPair_inj hm (by omega) (by omega) (by omega) h2).2
        omega
      · exact h.pairingNodup
    · intro c
      simp only
      rw [h.creatorsNodup.mem_erase_iff, h.creators, fa]
      rw [hl]
      constructor
      · rintro ⟨h1, h2, h3, h4, h5⟩
        exact ⟨by omega, h3, h4, h5, fun _ => by simpa using Ne.symm h1⟩
      · rintro ⟨h1, h2, h3, h4, h5⟩
        have hcm : c ≠ m := by rintro rfl; rw [hl] at h2; simp at h2
        exact ⟨by simpa using Ne.symm (h5 (by omega)), by omega, h2, h3, h4⟩
    · exact h.creatorsNodup.erase _
    · intro v
      simp only
      rw [List.mem_cons, ex, ← h.destroyers]
      simp only [hl, Option.some.injEq, exists_eq_left']
      exact or_comm
  | none =>
    have hp : ((!B.dual && B.dim m != B.rep.dimension) || (B.dual && B.dim m != 0) || inc)
        = creatorPred B inc m := rfl
    simp only [hp]
    have hpair : ∀ uv, uv ∈ st.pairing ↔ ∃ j < m + 1, ∃ i, (B.col j).getLast? = some i ∧
        uv = reportPair B.numColumns B.dual i j ∧ admissible B.numColumns max uv.1 = true := by
      intro uv
      rw [ex, ← h.pairing, hl]; simp
    have hdes : ∀ v, v ∈ st.destroyers ↔ ∃ j < m + 1, ∃ i, (B.col j).getLast? = some i ∧
        v = (reportPair B.numColumns B.dual i j).2 := by
      intro v
      rw [ex, ← h.destroyers, hl]; simp
    split_ifs with hc
    · refine ⟨hpair, h.pairingNodup, ?_, ?_, hdes⟩
      · intro c
        simp only
        rw [List.mem_append, List.mem_singleton, h.creators, fa, hl]
        constructor
        · rintro (⟨h1, h2, h3, h4⟩ | rfl)
          · exact ⟨by omega, h2, h3, h4, by simp⟩
          · refine ⟨by omega, hl, hc, ?_, by simp⟩
            intro j hj hc
            omega
        · rintro ⟨h1, h2, h3, h4, _⟩
          rcases Nat.lt_succ_iff_lt_or_eq.1 h1 with h | rfl
          · exact Or.inl ⟨h, h2, h3, h4⟩
          · exact Or.inr rfl
      · simp only
        rw [List.nodup_append]
        refine ⟨h.creatorsNodup, List.nodup_singleton _, ?_⟩
        intro a ha b hb
        rw [List.mem_singleton] at hb
        subst hb
        have := ((h.creators _).1 ha).1
        omega
    · refine ⟨hpair, h.pairingNodup, ?_, h.creatorsNodup, hdes⟩
      intro c
      rw [h.creators, fa, hl]
      constructor
      · rintro ⟨h1, h2, h3, h4⟩
        exact ⟨by omega, h2, h3, h4, by simp⟩
      · rintro ⟨h1, h2, h3, h4, _⟩
        rcases Nat.lt_succ_iff_lt_or_eq.1 h1 with h | rfl
        · exact ⟨h, h2, h3, h4⟩
        · exact absurd h3 hc

theorem pairInv_loop {B : BM} {inc : Bool} {max : ℕ}
    (hb : ∀ j < B.numColumns, ∀ i, (B.col j).getLast? = some i → i < B.numColumns) (m : ℕ) (hm : m ≤ B.numColumns) :
    PairInv B inc max m ((List.range m).foldl (pairStep B inc max) ⟨[], [], []⟩) := by
  induction m with
  | zero => refine ⟨?_, ?_, ?_, ?_, ?_⟩ <;> simp
  | succ m ih =>
    rw [List.range_succ, List.foldl_append]
    exact pairInv_step hb (by omega) (ih (by omega))

instance : Std.Total pairLE := ⟨fun a b => by unfold pairLE; omega⟩
instance : IsTrans (ℕ × ℕ) pairLE := ⟨fun a b c => by unfold pairLE; omega⟩

theorem readPairing_sorted (B : BM) (inc : Bool) (max : ℕ) :
    (readPairing B inc max).Pairwise pairLE := by
  unfold readPairing
  exact List.pairwise_insertionSort pairLE _

/-- Position of a column with respect to the original order. -/
def unflip (n : ℕ) (dual : Bool) (c : ℕ) : ℕ := if dual then n - 1 - c else c

theorem unflip_inj {n : ℕ} {dual : Bool} {a b : ℕ} (ha : a < n) (hb : b < n)
    (h : unflip n dual a = unflip n dual b) : a = b := by
  unfold unflip at h; split_ifs at h <;> omega

theorem reportPair_snd {n : ℕ} {dual : Bool} {i j : ℕ} :
    (reportPair n dual i j).2 = unflip n dual (if dual then i else j) := by
  cases dual <;> rfl

/-- The pairing read off a matrix whose maximum indices may exceed the index of their column. -/
theorem mem_readPairing_general {B : BM} {inc : Bool} {max : ℕ}
    (hb : ∀ j < B.numColumns, ∀ i, (B.col j).getLast? = some i → i < B.numColumns)
    (hn : ∀ j i, (B.col j).getLast? = some i → j < B.numColumns) (uv : ℕ × ℕ) :
    uv ∈ readPairing B inc max ↔
      (∃ j i, (B.col j).getLast? = some i ∧ uv = reportPair B.numColumns B.dual i j ∧
        admissible B.numColumns max uv.1 = true) ∨
      (∃ c < B.numColumns, (B.col c).getLast? = none ∧ creatorPred B inc c = true ∧
        (∀ j, (c < j ∨ B.dual = true) → (B.col j).getLast? ≠ some c) ∧
        uv = (unflip B.numColumns B.dual c, idxMax) ∧
        admissible B.numColumns max uv.1 = true) := by
  have h := pairInv_loop (inc := inc) (max := max) hb B.numColumns le_rfl
  unfold readPairing
  simp only
  rw [List.mem_insertionSort, List.mem_append, h.pairing]
  refine or_congr ?_ ?_
  · constructor
    · rintro ⟨j, _, i, h'⟩; exact ⟨j, i, h'⟩
    · rintro ⟨j, i, h'⟩; exact ⟨j, hn j i h'.1, i, h'⟩
  · unfold unpairedEntries
    simp only [List.mem_map, List.mem_filter, Bool.and_eq_true, Bool.not_eq_true',
      List.contains_eq_mem, decide_eq_false_iff_not]
    constructor
    · rintro ⟨u, ⟨⟨c, hc, rfl⟩, hd, ha⟩, rfl⟩
      obtain ⟨a1, a2, a3, a4⟩ := (h.creators c).1 hc
      refine ⟨c, a1, a2, a3, fun j hj he => ?_, rfl, ha⟩
      rcases hj with hj | hj
      · exact a4 j (hn j c he) hj he
      · apply hd
        rw [h.destroyers]
        exact ⟨j, hn j c he, c, he, by rw [reportPair_snd, hj]; rfl⟩
    · rintro ⟨c, h1, h2, h3, h4, rfl, h6⟩
      refine ⟨unflip B.numColumns B.dual c, ⟨⟨c, ?_, rfl⟩, ?_, h6⟩, rfl⟩
      · exact (h.creators c).2 ⟨h1, h2, h3, fun j _ hj => h4 j (Or.inl hj)⟩
      · rw [h.destroyers]
        rintro ⟨j, hj, i, h5, h7⟩
        have hi := hb j hj i h5
        rw [reportPair_snd] at h7
        have := unflip_inj h1 (by split_ifs <;> omega) h7
        split_ifs at this with hd
        · subst this; exact h4 j (Or.inr hd) h5
        · subst this; rw [h2] at h5; simp at h5

theorem mem_readPairing {B : BM} {inc : Bool} {max : ℕ}
    (hlt : ∀ j i, (B.col j).getLast? = some i → i < j)
    (hn : ∀ j i, (B.col j).getLast? = some i → j < B.numColumns) (uv : ℕ × ℕ) :
    uv ∈ readPairing B inc max ↔
      (∃ j i, (B.col j).getLast? = some i ∧ uv = reportPair B.numColumns B.dual i j ∧
        admissible B.numColumns max uv.1 = true) ∨
      (∃ c < B.numColumns, (B.col c).getLast? = none ∧ creatorPred B inc c = true ∧
        (∀ j, (B.col j).getLast? ≠ some c) ∧ uv = (unflip B.numColumns B.dual c, idxMax) ∧
        admissible B.numColumns max uv.1 = true) := by
  rw [mem_readPairing_general (fun j hj i hl => (hlt j i hl).trans hj) hn]
  have : ∀ c, (∀ j, (c < j ∨ B.dual = true) → (B.col j).getLast? ≠ some c) ↔
      ∀ j, (B.col j).getLast? ≠ some c :=
    fun c => ⟨fun h j he => h j (Or.inl (hlt j c he)) he, fun h j _ => h j⟩
  simp only [this]

theorem nodup_readPairing_general {B : BM} {inc : Bool} {max : ℕ}
    (hb : ∀ j < B.numColumns, ∀ i, (B.col j).getLast? = some i → i < B.numColumns)
    (hmax : B.numColumns ≤ idxMax) : (readPairing B inc max).Nodup := by
  have h := pairInv_loop (inc := inc) (max := max) hb B.numColumns le_rfl
  unfold readPairing
  simp only
  rw [(List.perm_insertionSort _ _).nodup_iff, List.nodup_append]
  refine ⟨h.pairingNodup, ?_, ?_⟩
  · unfold unpairedEntries
    refine List.Nodup.map (fun a b hab => by simpa using hab) (List.Nodup.filter _ ?_)
    refine List.Nodup.map_on ?_ h.creatorsNodup
    intro a ha b hb hab
    exact unflip_inj (dual := B.dual) ((h.creators a).1 ha).1 ((h.creators b).1 hb).1 hab
  · intro a ha b hb'
    obtain ⟨j, hj, i, h1, rfl, _⟩ := (h.pairing a).1 ha
    have := hb j hj i h1
    unfold unpairedEntries at hb'
    simp only [List.mem_map] at hb'
    obtain ⟨u, _, rfl⟩ := hb'
    intro he
    have h2 := congrArg Prod.snd he
    unfold reportPair at h2
    split_ifs at h2 <;> simp only at h2 <;> omega

theorem nodup_readPairing {B : BM} {inc : Bool} {max : ℕ}
    (hlt : ∀ j i, (B.col j).getLast? = some i → i < j)
    (hmax : B.numColumns ≤ idxMax) : (readPairing B inc max).Nodup :=
  nodup_readPairing_general (fun j hj i hl => (hlt j i hl).trans hj) hmax

/-- Sorted duplicate-free pairings with the same entries are equal. -/
theorem pairing_ext {p q : List (ℕ × ℕ)} (hp : p.Pairwise pairLE) (hq : q.Pairwise pairLE)
    (np : p.Nodup) (nq : q.Nodup) (h : ∀ x, x ∈ p ↔ x ∈ q) : p = q :=
  ((List.perm_ext_iff_of_nodup np nq).2 h).eq_of_pairwise
    (fun a b _ _ h1 h2 => by
      unfold pairLE at h1 h2
      ext <;> omega) hp hq

end Aleph
