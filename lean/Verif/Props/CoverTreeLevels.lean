import Verif.Model.CoverTreeLevels
import Verif.Spec.CoverTreeLevels
import Verif.Props.CoverTree
import Mathlib.Data.List.Sort

/-!
# C149: levels of cover trees, and their harmony
-/

namespace Aleph.CoverTree

open Spec

variable {P α : Type}

/-! ### Levels -/

theorem insertUpper_perm (x : ℤ × P) (l : List (ℤ × P)) : (insertUpper x l).Perm (x :: l) := by
  induction l with
  | nil => exact List.Perm.refl _
  | cons y l ih =>
    rw [insertUpper]
    split
    · exact List.Perm.refl _
    · exact (ih.cons y).trans (List.Perm.swap x y l)

theorem insertUpper_sorted (x : ℤ × P) (l : List (ℤ × P)) (h : l.Pairwise fun a b => a.1 ≤ b.1) : (insertUpper x l).Pairwise fun a b => a.1 ≤ b.1 := by
  induction l with
  | nil => simp [insertUpper]
  | cons y l ih =>
    rw [insertUpper]
    obtain ⟨h1, h2⟩ := List.pairwise_cons.1 h
    split
    · rename_i hlt
      refine List.pairwise_cons.2 ⟨fun z hz => ?_, h⟩
      rcases List.mem_cons.1 hz with rfl | hz
      · exact hlt.le
      · exact hlt.le.trans (h1 z hz)
    · rename_i hlt
      refine List.pairwise_cons.2 ⟨fun z hz => ?_, ih h2⟩
      rcases List.mem_cons.1 ((insertUpper_perm x l).subset hz) with rfl | hz
      · exact not_lt.1 hlt
      · exact h1 z hz

theorem foldl_insertUpper (xs m : List (ℤ × P)) (hm : m.Pairwise fun a b => a.1 ≤ b.1) :
    (xs.foldl (fun m x => insertUpper x m) m).Pairwise (fun a b => a.1 ≤ b.1) ∧ (xs.foldl (fun m x => insertUpper x m) m).Perm (xs ++ m) := by
  induction xs generalizing m with
  | nil => exact ⟨hm, List.Perm.refl _⟩
  | cons x xs ih =>
    obtain ⟨h1, h2⟩ := ih _ (insertUpper_sorted x m hm)
    exact ⟨h1, h2.trans (((insertUpper_perm x m).append_left xs).trans List.perm_middle)⟩

theorem storedAt_iff (t : Node P) (p : P) (l : ℤ) : StoredAt t p l ↔ ∃ x, Below x t ∧ x.point = p ∧ x.level = l := by
  induction t using Node.ind with
  | h q m cs ih =>
    constructor
    · intro h
      cases h with
      | root => exact ⟨_, .refl _, rfl, rfl⟩
      | child _ _ _ c _ _ hc h =>
        obtain ⟨x, hx, h1, h2⟩ := (ih c hc).1 h
        exact ⟨x, .child hc hx, h1, h2⟩
    · rintro ⟨x, hx, rfl, rfl⟩
      cases hx with
      | refl => exact .root _ _ _
      | child hc hx => exact .child _ _ _ _ _ _ hc ((ih _ hc).2 ⟨x, hx, rfl, rfl⟩)

theorem bfs_map {β γ : Type} (g : Node P → β) (h : β → γ) (k : ℕ) (ns : List (Node P)) : (bfs (fun t => [g t]) k ns).map h = bfs (fun t => [h (g t)]) k ns := by
  induction k generalizing ns with
  | zero => rfl
  | succ k ih =>
    cases ns with
    | nil => rfl
    | cons n ns =>
      rw [bfs, bfs, List.map_append, ih, List.map_flatMap]
      · simp
      all_goals simp

theorem bfs_storedAt (t : Node P) (x : P × ℤ) : x ∈ bfs (fun t => [(t.point, t.level)]) (size t + 1) [t] ↔ StoredAt t x.1 x.2 := by
  rw [bfs_mem _ _ _ (by simp), storedAt_iff]
  simp only [List.mem_singleton, exists_eq_left, Prod.ext_iff]
  exact exists_congr fun y => and_congr_right fun _ => and_congr eq_comm eq_comm

theorem bfs_sorted (k : ℕ) (ns : List (Node P)) (hs : (ns.map size).sum < k) (L : ℤ) (hL : ∀ t ∈ ns, t.level = L) (hb : ∀ t ∈ ns, ∀ x, Below x t → ∀ c ∈ x.children, c.level = x.level - 1) :
    (bfs (fun t => [(t.point, t.level)]) k ns).Pairwise (fun a b => b.2 ≤ a.2) ∧ ∀ x ∈ bfs (fun t => [(t.point, t.level)]) k ns, x.2 ≤ L := by
  induction k generalizing ns L with
  | zero => omega
  | succ k ih =>
    cases ns with
    | nil => simp [bfs]
    | cons n ns =>
      have hbfs : bfs (fun t : Node P => [(t.point, t.level)]) (k + 1) (n :: ns) = (n :: ns).flatMap (fun t => [(t.point, t.level)]) ++ bfs (fun t => [(t.point, t.level)]) k ((n :: ns).flatMap Node.children) := by
        rw [bfs]
        simp
      rw [hbfs]
      obtain ⟨h1, h2⟩ := ih ((n :: ns).flatMap Node.children) (by
          have := sizes_children (n :: ns)
          simp only [List.length_cons] at this
          omega) (L - 1)
        (fun c hc => by
          obtain ⟨t, ht, hc⟩ := List.mem_flatMap.1 hc
          rw [hb t ht t (.refl t) c hc, hL t ht])
        (fun c hc x hx => by
          obtain ⟨t, ht, hc⟩ := List.mem_flatMap.1 hc
          exact hb t ht x (.child hc hx))
      have hlev : ∀ x ∈ (n :: ns).flatMap (fun t => [(t.point, t.level)]), x.2 = L := by
        intro x hx
        obtain ⟨t, ht, hx⟩ := List.mem_flatMap.1 hx
        rw [List.mem_singleton.1 hx]
        exact hL t ht
      refine ⟨List.pairwise_append.2 ⟨?_, h1, fun a ha b hb => ?_⟩, fun x hx => ?_⟩
      · exact List.pairwise_of_forall_mem_list fun a ha b hb => by rw [hlev a ha, hlev b hb]
      · rw [hlev a ha]
        exact (h2 b hb).trans (by omega)
      · rcases List.mem_append.1 hx with hx | hx
        · exact (hlev x hx).le
        · exact (h2 x hx).trans (by omega)

/-- What the map contains after some of the pairs have been inserted. -/
structure MapInv (m seen : List (P × ℤ)) : Prop where
  nodup : (m.map Prod.fst).Nodup
  mem : ∀ p l, (p, l) ∈ m ↔ (p, l) ∈ seen ∧ ∀ l', (p, l') ∈ seen → l' ≤ l
  keys : ∀ p l, (p, l) ∈ seen → p ∈ m.map Prod.fst

theorem mapInv_step [DecidableEq P] (m seen : List (P × ℤ)) (x : P × ℤ) (h : MapInv m seen) (hx : ∀ y ∈ seen, x.2 ≤ y.2) : MapInv (if x.1 ∈ m.map Prod.fst then m else m ++ [x]) (seen ++ [x]) := by
  obtain ⟨q, k⟩ := x
  split
  · rename_i hq
    obtain ⟨⟨q', l0⟩, hm, rfl⟩ := List.mem_map.1 hq
    obtain ⟨h1, h2⟩ := (h.mem _ _).1 hm
    have h3 := hx _ h1
    simp only at h3
    refine ⟨h.nodup, fun p l => ?_, fun p l hp => ?_⟩
    · rw [h.mem]
      constructor
      · rintro ⟨h4, h5⟩
        refine ⟨List.mem_append_left _ h4, fun l' hl' => ?_⟩
        rcases List.mem_append.1 hl' with hl' | hl'
        · exact h5 _ hl'
        · simp only [List.mem_singleton, Prod.mk.injEq] at hl'
          obtain ⟨rfl, rfl⟩ := hl'
          exact h3.trans (h5 _ h1)
      · rintro ⟨h4, h5⟩
        have h6 : ∀ l', (p, l') ∈ seen → l' ≤ l := fun l' hl' => h5 _ (List.mem_append_left _ hl')
        rcases List.mem_append.1 h4 with h4 | h4
        · exact ⟨h4, h6⟩
        · simp only [List.mem_singleton, Prod.mk.injEq] at h4
          obtain ⟨rfl, rfl⟩ := h4
          obtain rfl : l0 = l := le_antisymm (h6 _ h1) h3
          exact ⟨h1, h6⟩
    · rcases List.mem_append.1 hp with hp | hp
      · exact h.keys _ _ hp
      · simp only [List.mem_singleton, Prod.mk.injEq] at hp
        rw [hp.1]
        exact hq
  · rename_i hq
    have hno : ∀ l, (q, l) ∉ seen := fun l hl => hq (h.keys _ _ hl)
    refine ⟨?_, fun p l => ?_, fun p l hp => ?_⟩
    · rw [List.map_append, List.nodup_append]
      refine ⟨h.nodup, by simp, fun a ha b hb => ?_⟩
      rintro rfl
      simp only [List.map_cons, List.map_nil, List.mem_singleton] at hb
      exact hq (hb ▸ ha)
    · rw [List.mem_append, h.mem]
      simp only [List.mem_append, List.mem_singleton, Prod.mk.injEq]
      constructor
      · rintro (⟨h4, h5⟩ | ⟨rfl, rfl⟩)
        · refine ⟨.inl h4, fun l' hl' => ?_⟩
          rcases hl' with hl' | ⟨rfl, rfl⟩
          · exact h5 _ hl'
          · exact absurd h4 (hno _)
        · refine ⟨.inr ⟨rfl, rfl⟩, fun l' hl' => ?_⟩
          rcases hl' with hl' | ⟨_, rfl⟩
          · exact absurd hl' (hno _)
          · exact le_refl _
      · rintro ⟨h4 | h4, h5⟩
        · exact .inl ⟨h4, fun l' hl' => h5 l' (.inl hl')⟩
        · exact .inr h4
    · rw [List.map_append, List.mem_append]
      rcases List.mem_append.1 hp with hp | hp
      · exact .inl (h.keys _ _ hp)
      · simp only [List.mem_singleton, Prod.mk.injEq] at hp
        exact .inr (by simp [hp.1])

theorem mapInv_foldl [DecidableEq P] (xs m seen : List (P × ℤ)) (h : MapInv m seen) (hs : (seen ++ xs).Pairwise fun a b => b.2 ≤ a.2) :
    MapInv (xs.foldl (fun m x => if x.1 ∈ m.map Prod.fst then m else m ++ [x]) m) (seen ++ xs) := by
  induction xs generalizing m seen with
  | nil => simpa using h
  | cons x xs ih =>
    rw [List.foldl_cons]
    have := ih _ (seen ++ [x]) (mapInv_step m seen x h fun y hy => (List.pairwise_append.1 hs).2.2 y hy x (by simp)) (by simpa using hs)
    simpa using this

/-! ### Harmony -/

section

variable [Field α] [LinearOrder α]

theorem descend_eq (d : P → P → α) (p : P) (t : Node P) : descend d p t = t :: descendChildren d p t.children := by
  obtain ⟨q, l, cs⟩ := t
  rw [descend]
  rfl

theorem descendChildren_append (d : P → P → α) (p : P) (before after : List (Node P)) (hb : ∀ x ∈ before, 2 ^ x.level < d p x.point) :
    descendChildren d p (before ++ after) = descendChildren d p after := by
  induction before with
  | nil => rfl
  | cons x l ih =>
    rw [List.cons_append, descendChildren, if_neg (show ¬ d p x.point ≤ coveringDistance x.level from not_le.2 (hb x (by simp))), ih fun y hy => hb y (List.mem_cons_of_mem _ hy)]

theorem descent_unique (d : P → P → α) (p : P) (t : Node P) (path : List (P × ℤ)) (h : Descent d p t path) : path = (descend d p t).map fun x => (x.point, x.level) := by
  induction h with
  | stop q l cs h =>
    have := descendChildren_append d p cs [] h
    rw [List.append_nil] at this
    rw [descend_eq]
    simp only [Node.children, this, descendChildren]
    rfl
  | step q l before after c path hb hc _ ih =>
    rw [descend_eq]
    simp only [Node.children]
    rw [descendChildren_append d p before _ hb, descendChildren, if_pos (show d p c.point ≤ coveringDistance c.level from hc), List.map_cons, ih]
    rfl

theorem descent_exists (d : P → P → α) (p : P) (t : Node P) : ∃ path, Descent d p t path := by
  induction t using Node.ind with
  | h q l cs ih =>
    by_cases hc : ∀ c ∈ cs, 2 ^ c.level < d p c.point
    · exact ⟨_, .stop q l cs hc⟩
    · have : ∃ before c after, cs = before ++ c :: after ∧ (∀ x ∈ before, 2 ^ x.level < d p x.point) ∧ d p c.point ≤ 2 ^ c.level := by
        clear ih
        induction cs with
        | nil => simp at hc
        | cons c cs ih =>
          by_cases h : d p c.point ≤ 2 ^ c.level
          · exact ⟨[], c, cs, rfl, by simp, h⟩
          · have h1 : ¬ ∀ c ∈ cs, 2 ^ c.level < d p c.point := fun h1 => hc fun x hx => by
              rcases List.mem_cons.1 hx with rfl | hx
              · exact not_le.1 h
              · exact h1 x hx
            obtain ⟨before, c', after, rfl, h2, h3⟩ := ih h1
            refine ⟨c :: before, c', after, rfl, fun x hx => ?_, h3⟩
            rcases List.mem_cons.1 hx with rfl | hx
            · exact not_le.1 h
            · exact h2 x hx
      obtain ⟨before, c, after, rfl, h1, h2⟩ := this
      obtain ⟨path, hp⟩ := ih c (by simp)
      exact ⟨_, .step q l before after c path h1 h2 hp⟩

theorem descend_sublist (d : P → P → α) (p : P) (t : Node P) : ((descend d p t).map Node.point).Sublist (dfs t) := by
  induction t using Node.ind with
  | h q l cs ih =>
    rw [descend, dfs_mk, List.map_cons]
    refine List.Sublist.cons_cons _ ?_
    induction cs with
    | nil => simp [descendChildren]
    | cons c cs ih' =>
      rw [descendChildren, List.flatMap_cons]
      split
      · exact (ih c (by simp)).trans (List.sublist_append_left _ _)
      · exact (ih' fun x hx => ih x (List.mem_cons_of_mem _ hx)).trans (List.sublist_append_right _ _)

theorem distances_eq (d : P → P → α) (p : P) (t : Node P) (path : List (P × ℤ)) (ds : List α) (hp : Descent d p t path) (hd : CoverDistances d p path ds) : distances d p t = ds := by
  obtain ⟨covering, rfl, rfl⟩ := hd
  rw [descent_unique d p t path hp, distances, List.filter_map, List.map_map]
  rfl

theorem isSorted_iff (l : List α) : isSorted l = true ↔ l.Pairwise (· < ·) := by
  induction l with
  | nil => simp [isSorted]
  | cons x l ih =>
    cases l with
    | nil => simp [isSorted]
    | cons y l =>
      rw [isSorted, Bool.and_eq_true, ih, List.pairwise_cons (a := x)]
      simp only [Bool.not_eq_true', decide_eq_false_iff_not, not_le]
      constructor
      · rintro ⟨h1, h2⟩
        refine ⟨fun z hz => ?_, h2⟩
        rcases List.mem_cons.1 hz with rfl | hz
        · exact h1
        · exact h1.trans ((List.pairwise_cons.1 h2).1 z hz)
      · rintro ⟨h1, h2⟩
        exact ⟨h1 y (by simp), h2⟩

theorem foldl_max_ge (l : List α) (x : α) : x ≤ l.foldl max x ∧ ∀ y ∈ l, y ≤ l.foldl max x := by
  induction l generalizing x with
  | nil => simp
  | cons y l ih =>
    rw [List.foldl_cons]
    obtain ⟨h1, h2⟩ := ih (max x y)
    refine ⟨(le_max_left _ _).trans h1, fun z hz => ?_⟩
    rcases List.mem_cons.1 hz with rfl | hz
    · exact (le_max_right _ _).trans h1
    · exact h2 z hz

theorem foldl_max_le (l : List α) (x b : α) (hx : x ≤ b) (h : ∀ y ∈ l, y ≤ b) : l.foldl max x ≤ b := by
  induction l generalizing x with
  | nil => exact hx
  | cons y l ih => exact ih _ (max_le hx (h y (by simp))) fun z hz => h z (List.mem_cons_of_mem _ hz)

end

section

variable [Field α] [LinearOrder α] [IsStrictOrderedRing α]

theorem lower_spec (m : α) (n : ℕ) (l : ℤ) (h : (2 : α) ^ (l - n) < m) : ∃ r : ℤ, r ≤ l + 1 ∧ (2 : α) ^ (r - 1) < m ∧ (r ≤ l → m ≤ 2 ^ r) ∧ ∀ k, n < k → lower m k l = some r := by
  induction n generalizing l with
  | zero =>
    simp only [Nat.cast_zero, sub_zero] at h
    refine ⟨l + 1, le_refl _, by simpa using h, fun h => by omega, fun k hk => ?_⟩
    obtain ⟨k, rfl⟩ := Nat.exists_eq_succ_of_ne_zero (by omega : k ≠ 0)
    rw [lower, if_neg]
    exact not_le.2 h
  | succ n ih =>
    by_cases hm : m ≤ (2 : α) ^ l
    · obtain ⟨r, h1, h2, h3, h4⟩ := ih (l - 1) (by
        rw [show l - 1 - (n : ℤ) = l - ((n + 1 : ℕ) : ℤ) by push_cast; ring]
        exact h)
      refine ⟨r, by omega, h2, fun hr => ?_, fun k hk => ?_⟩
      · by_cases hr' : r ≤ l - 1
        · exact h3 hr'
        · rw [show r = l by omega]
          exact hm
      · obtain ⟨k, rfl⟩ := Nat.exists_eq_succ_of_ne_zero (by omega : k ≠ 0)
        rw [lower, if_pos (show m ≤ coveringDistance l from hm)]
        exact h4 k (by omega)
    · refine ⟨l + 1, le_refl _, by simpa using hm, fun h => by omega, fun k hk => ?_⟩
      obtain ⟨k, rfl⟩ := Nat.exists_eq_succ_of_ne_zero (by omega : k ≠ 0)
      rw [lower, if_neg (show ¬ m ≤ coveringDistance l from hm)]

theorem lower_none (m : α) (hm : m ≤ 0) (k : ℕ) (l : ℤ) : lower m k l = none := by
  induction k generalizing l with
  | zero => rfl
  | succ k ih =>
    rw [lower, if_pos, ih]
    exact hm.trans (zpow_pos (by norm_num) _).le

theorem exists_small [Archimedean α] (m : α) (hm : 0 < m) (l : ℤ) : ∃ n : ℕ, (2 : α) ^ (l - n) < m := by
  have hl : (0 : α) < 2 ^ l := zpow_pos (by norm_num) _
  obtain ⟨n, hn⟩ := exists_pow_lt_of_lt_one (div_pos hm hl) (show (1 / 2 : α) < 1 by norm_num)
  refine ⟨n, ?_⟩
  rw [zpow_sub₀ (by norm_num), zpow_natCast, div_eq_mul_inv, ← inv_pow, mul_comm, ← one_div]
  exact (lt_div_iff₀ hl).1 hn

theorem foldlM_insert [Archimedean α] (d : P → P → α) (hsym : ∀ x y, d x y = d y x) (htri : ∀ x y z, d x z ≤ d x y + d y z) (ps : List P) (t : Node P) (ht : IsCoverTree d t) :
    ∃ t' : Node P, IsCoverTree d t' ∧ (dfs t').Perm (ps ++ dfs t) ∧ ∃ rounds, ∀ k, rounds ≤ k → ps.foldlM (insert d k) (some t) = some (some t') := by
  induction ps generalizing t with
  | nil => exact ⟨t, ht, List.Perm.refl _, 0, fun k _ => rfl⟩
  | cons q ps ih =>
    obtain ⟨t1, h1, h2, r1, h3⟩ := insertNode_spec d hsym htri q t ht
    obtain ⟨t2, k1, k2, r2, k3⟩ := ih t1 h1
    refine ⟨t2, k1, k2.trans ((List.Perm.append_left _ h2).trans List.perm_middle), max r1 r2, fun k hk => ?_⟩
    rw [List.foldlM_cons]
    have : insert d k (some t) q = some (some t1) := by
      simp only [insert, h3 k (le_trans (le_max_left _ _) hk), Option.map_some]
    rw [this]
    exact k3 k (le_trans (le_max_right _ _) hk)

end

end Aleph.CoverTree

namespace Aleph

open Spec CoverTree

variable {P α : Type}

/-- C149. The multimap of `getNodesByLevel` is sorted by level, contains every point of the tree exactly as often as the tree stores it, and assigns it the level of its node; for an empty tree, a null pointer is
dereferenced. -/
theorem C149_by_level (t : Node P) :
    (∃ m : List (ℤ × P), nodesByLevel (some t) = some m ∧ m.Pairwise (fun a b => a.1 ≤ b.1) ∧ (m.map Prod.snd).Perm (points t) ∧ ∀ l p, (l, p) ∈ m ↔ StoredAt t p l) ∧
      nodesByLevel (none : Option (Node P)) = none := by
  refine ⟨⟨_, rfl, ?_⟩, rfl⟩
  obtain ⟨h1, h2⟩ := foldl_insertUpper (bfs (fun t : Node P => [(t.level, t.point)]) (size t + 1) [t]) [] List.Pairwise.nil
  rw [List.append_nil] at h2
  refine ⟨h1, (h2.map _).trans ?_, fun l p => ?_⟩
  · rw [bfs_map]
    exact List.Perm.refl _
  · rw [h2.mem_iff, bfs_mem _ _ _ (by simp), storedAt_iff]
    simp only [List.mem_singleton, exists_eq_left, Prod.mk.injEq]
    exact exists_congr fun y => and_congr_right fun _ => and_comm.trans (and_congr eq_comm eq_comm)

/-- C149. In the multimap of a cover tree, every entry except that of the root has an entry at the next higher level whose point is at a distance of at most `2` to the power of that level. -/
theorem C149_covered [Field α] [LinearOrder α] (d : P → P → α) (t : Node P) (ht : IsCoverTree d t) :
    ∃ m : List (ℤ × P), nodesByLevel (some t) = some m ∧ ∀ l p, (l, p) ∈ m → (l = t.level ∧ p = t.point) ∨ l < t.level ∧ ∃ q, (l + 1, q) ∈ m ∧ d q p ≤ 2 ^ (l + 1) := by
  obtain ⟨⟨m, h1, _, _, h2⟩, _⟩ := C149_by_level t
  refine ⟨m, h1, fun l p hm => ?_⟩
  simp only [h2] at hm ⊢
  clear * - ht hm
  induction ht generalizing l p with
  | mk q k cs hl hc hs hb ih =>
    cases hm with
    | root => exact .inl ⟨rfl, rfl⟩
    | child _ _ _ c _ _ hcs hm =>
      right
      have h3 : c.level = k - 1 := hl c hcs
      rcases ih c hcs l p hm with ⟨rfl, rfl⟩ | ⟨h4, x, h5, h6⟩
      · refine ⟨?_, q, ?_, ?_⟩
        · simp only [Node.level] at h3 ⊢
          omega
        · rw [h3, sub_add_cancel]
          exact .root _ _ _
        · rw [h3, sub_add_cancel]
          exact hc c hcs
      · refine ⟨?_, x, .child _ _ _ c _ _ hcs h5, h6⟩
        show l < k
        omega

/-- C149. The map of `nodesToLevel` contains every point of a cover tree once, with the highest level at which the tree stores it; for an empty tree, a null pointer is dereferenced. -/
theorem C149_to_level [DecidableEq P] [Field α] [LinearOrder α] (d : P → P → α) (t : Node P) (ht : IsCoverTree d t) :
    (∃ m : List (P × ℤ), nodesToLevel (some t) = some m ∧ (m.map Prod.fst).Nodup ∧ (∀ p, p ∈ m.map Prod.fst ↔ p ∈ points t) ∧
        ∀ p l, (p, l) ∈ m ↔ StoredAt t p l ∧ ∀ l', StoredAt t p l' → l' ≤ l) ∧
      nodesToLevel (none : Option (Node P)) = none := by
  refine ⟨⟨_, rfl, ?_⟩, rfl⟩
  have hs := (bfs_sorted (size t + 1) [t] (by simp) t.level (by simp) (fun u hu x hx => by
    rw [List.mem_singleton.1 hu] at hx
    exact ((isCoverTree_iff d t).1 ht x hx).1)).1
  have h := mapInv_foldl _ [] [] ⟨by simp, by simp, by simp⟩ (by simpa using hs)
  rw [List.nil_append] at h
  have hm := h.mem
  simp only [bfs_storedAt] at hm
  refine ⟨h.nodup, fun p => ?_, hm⟩
  rw [(by rw [bfs_map]; rfl : points t = (bfs (fun t : Node P => [(t.point, t.level)]) (size t + 1) [t]).map Prod.fst)]
  constructor
  · intro hp
    obtain ⟨⟨q, l⟩, h1, rfl⟩ := List.mem_map.1 hp
    exact List.mem_map.2 ⟨(q, l), ((h.mem q l).1 h1).1, rfl⟩
  · intro hp
    obtain ⟨⟨q, l⟩, h1, rfl⟩ := List.mem_map.1 hp
    exact h.keys q l h1

/-- C149 (partial). For a metric and a cover tree with distinct points, `isHarmonic` ends without error.  Its result is whether the distances of the point to the nodes of its path that cover it are strictly decreasing.
Afterwards, the tree is still a cover tree of the same points.  It has changed only if there are at least two distances, all of which are at most `2 ^ (level - 1)`: it is then built anew, with the last node of
the path as its first point, whose level is the smallest that covers all distances, from the remaining points in descending order of their distances to it.

It does not hold for trees that store a point several times (`C149_endless`, `C149_lost`), and the level of the tree may increase (`C149_raised`). -/
theorem C149_harmonic_partial [DecidableEq P] [Field α] [LinearOrder α] [IsStrictOrderedRing α] [Archimedean α] (d : P → P → α) (hsym : ∀ x y, d x y = d y x) (htri : ∀ x y z, d x z ≤ d x y + d y z)
    (hzero : ∀ x y, d x y = 0 ↔ x = y) (sort : (P → α) → List P → List P) (hsort : SortsDown sort) (t : Node P) (ht : IsCoverTree d t) (hnd : (points t).Nodup) (p : P)
    (path : List (P × ℤ)) (hp : Descent d p t path) (ds : List α) (hds : CoverDistances d p path ds) :
    ∃ (b : Bool) (t' : Node P), (∃ rounds, ∀ k, rounds ≤ k → isHarmonic d sort k (some t) p = some (b, some t')) ∧
      (b = true ↔ ds.Pairwise (· > ·)) ∧ IsCoverTree d t' ∧ (points t').Perm (points t) ∧
      ((ds.length < 2 ∨ ∃ x ∈ ds, 2 ^ (t.level - 1) < x) → t' = t) ∧
      (2 ≤ ds.length → (∀ x ∈ ds, x ≤ 2 ^ (t.level - 1)) →
        ∃ (q : P) (m l : ℤ) (others : List P), path.getLast? = some (q, m) ∧ (∀ x ∈ ds, x ≤ 2 ^ l) ∧ (∃ x ∈ ds, 2 ^ (l - 1) < x) ∧ (q :: others).Perm (points t) ∧
          others.Pairwise (fun a b => d q b ≤ d q a) ∧ ∃ rounds, ∀ k, rounds ≤ k → others.foldlM (CoverTree.insert d k) (some (.mk q l [])) = some (some t')) := by
  have hds' := distances_eq d p t path ds hp hds
  have hb : isSorted ds.reverse = true ↔ ds.Pairwise (· > ·) := by
    rw [isSorted_iff, List.pairwise_reverse]
  match hdl : ds with
  | [] => exact ⟨_, t, ⟨0, fun k _ => by simp only [isHarmonic, hds']⟩, hb, ht, List.Perm.refl _, fun _ => rfl, fun h => by simp at h⟩
  | [x] => exact ⟨_, t, ⟨0, fun k _ => by simp only [isHarmonic, hds']⟩, hb, ht, List.Perm.refl _, fun _ => rfl, fun h => by simp at h⟩
  | x :: y :: l =>
    have hnd' : (dfs t).Nodup := (points_perm t).nodup_iff.1 hnd
    have hnn : ∀ a b, 0 ≤ d a b := fun a b => by
      have h1 := htri a b a
      rw [(hzero a a).2 rfl, hsym b a] at h1
      linarith
    -- some distance is positive
    have hpos : 0 < (y :: l).foldl max x := by
      obtain ⟨h1, h2⟩ := foldl_max_ge (y :: l) x
      by_contra hcon
      rw [not_lt] at hcon
      have hsub : (((descend d p t).filter fun z => d p z.point ≤ coveringDistance z.level).map Node.point).Nodup :=
        ((List.Sublist.map _ List.filter_sublist).trans (descend_sublist d p t)).nodup hnd'
      have hmap : (((descend d p t).filter fun z => d p z.point ≤ coveringDistance z.level).map Node.point).map (d p) = x :: y :: l := by
        rw [List.map_map, ← hds']
        rfl
      generalize ((descend d p t).filter fun z => d p z.point ≤ coveringDistance z.level).map Node.point = pts at hsub hmap
      match pts with
      | [] => simp at hmap
      | [_] => simp at hmap
      | a :: b :: r =>
        simp only [List.map_cons, List.cons.injEq] at hmap
        have ha : d p a = 0 := le_antisymm (hmap.1.le.trans (h1.trans hcon)) (hnn _ _)
        have hb' : d p b = 0 := le_antisymm (hmap.2.1.le.trans ((h2 y (by simp)).trans hcon)) (hnn _ _)
        have : a = b := ((hzero _ _).1 ha).symm.trans ((hzero _ _).1 hb')
        rw [this] at hsub
        simp at hsub
    obtain ⟨n, hn⟩ := exists_small _ hpos t.level
    obtain ⟨r, hr1, hr2, hr3, hr4⟩ := lower_spec _ n t.level hn
    have hmono : StrictMono fun z : ℤ => (2 : α) ^ z := zpow_right_strictMono₀ (by norm_num)
    have hmax : ∀ c : α, (∃ z ∈ x :: y :: l, c < z) ↔ c < (y :: l).foldl max x := fun c => by
      constructor
      · rintro ⟨z, hz, hc⟩
        obtain ⟨h1, h2⟩ := foldl_max_ge (y :: l) x
        rcases List.mem_cons.1 hz with rfl | hz
        · exact hc.trans_le h1
        · exact hc.trans_le (h2 z hz)
      · intro hc
        by_contra hcon
        push Not at hcon
        exact absurd (hc.trans_le (foldl_max_le (y :: l) x c (hcon x (by simp)) fun z hz => hcon z (List.mem_cons_of_mem _ hz))) (lt_irrefl _)
    have hmax' : ∀ c : α, (∀ z ∈ x :: y :: l, z ≤ c) ↔ (y :: l).foldl max x ≤ c := fun c => by
      have := not_congr (hmax c)
      push Not at this
      exact this
    by_cases hlt : r < t.level
    · -- the tree is built anew
      have hle := hr3 hlt.le
      obtain ⟨c, hc⟩ : ∃ c, (descend d p t).getLast? = some c := by
        rw [descend_eq]
        exact ⟨_, List.getLast?_eq_some_getLast (by simp)⟩
      have hcm : c.point ∈ dfs t := (descend_sublist d p t).subset (List.mem_map.2 ⟨c, List.mem_of_getLast? hc, rfl⟩)
      obtain ⟨hs1, hs2⟩ := hsort (d c.point) ((points t).filter (· ≠ c.point))
      obtain ⟨t', k1, k2, rounds, k3⟩ := foldlM_insert d hsym htri (sort (d c.point) ((points t).filter (· ≠ c.point))) (.mk c.point r []) (.mk _ _ [] (by simp) (by simp) (by simp) (by simp))
      have hperm : (c.point :: sort (d c.point) ((points t).filter (· ≠ c.point))).Perm (points t) := by
        refine (hs1.cons _).trans ?_
        have h5 : c.point ∈ points t := (points_perm t).mem_iff.2 hcm
        have h6 : (points t).filter (· ≠ c.point) = (points t).erase c.point := by
          rw [hnd.erase_eq_filter]
          exact List.filter_congr fun z _ => by by_cases h : z = c.point <;> simp [h]
        rw [h6]
        exact (List.perm_cons_erase h5).symm
      refine ⟨isSorted (x :: y :: l).reverse, t', ⟨max rounds (n + 1), fun k hk => ?_⟩, hb, k1, ?_, ?_, ?_⟩
      · have h7 := k3 k ((le_max_left _ _).trans hk)
        have h8 := hr4 k (by have := (le_max_right rounds (n + 1)).trans hk; omega)
        simp only [isHarmonic, hds', h8, if_pos hlt, hc, h7]
      · refine (points_perm t').trans (k2.trans ?_)
        rw [dfs_mk]
        exact (List.perm_append_singleton _ _).trans hperm
      · rintro (h | h)
        · simp at h
          omega
        · rw [hmax] at h
          exact absurd (h.trans_le (hle.trans (hmono.monotone (show r ≤ t.level - 1 by omega)))) (lt_irrefl _)
      · intro _ _
        refine ⟨c.point, c.level, r, _, ?_, (hmax' _).2 hle, (hmax _).2 hr2, hperm, hs2, rounds, k3⟩
        rw [descent_unique d p t path hp, List.getLast?_map, hc]
        rfl
    · refine ⟨isSorted (x :: y :: l).reverse, t, ⟨n + 1, fun k hk => ?_⟩, hb, ht, List.Perm.refl _, fun _ => rfl, fun _ h => ?_⟩
      · simp only [isHarmonic, hds', hr4 k (by omega), if_neg hlt]
      · exfalso
        rw [hmax'] at h
        exact absurd ((hr2.trans_le h).trans_le (hmono.monotone (show t.level - 1 ≤ r - 1 by omega))) (lt_irrefl _)

/-- C149. If the path of a point contains at least two nodes that cover it, and all of them are at distance zero, `isHarmonic` does not end.  This requires that the tree stores a point several times. -/
theorem C149_endless [DecidableEq P] [Field α] [LinearOrder α] [IsStrictOrderedRing α] (d : P → P → α) (sort : (P → α) → List P → List P) (t : Node P) (p : P) (path : List (P × ℤ)) (hp : Descent d p t path)
    (ds : List α) (hds : CoverDistances d p path ds) (h2 : 2 ≤ ds.length) (h0 : ∀ x ∈ ds, x = 0) (rounds : ℕ) : isHarmonic d sort rounds (some t) p = none := by
  have hds' := distances_eq d p t path ds hp hds
  match ds with
  | [] => simp at h2
  | [_] => simp at h2
  | x :: y :: l =>
    have h : (y :: l).foldl max x ≤ 0 := foldl_max_le _ _ _ (h0 x (by simp)).le fun z hz => (h0 z (List.mem_cons_of_mem _ hz)).le
    simp only [isHarmonic, hds', lower_none _ h]

/-- C149. Every point has exactly one path through a tree. -/
theorem C149_path [Field α] [LinearOrder α] (d : P → P → α) (p : P) (t : Node P) : ∃! path, Descent d p t path := by
  obtain ⟨path, hp⟩ := descent_exists d p t
  exact ⟨path, hp, fun path' h => (descent_unique d p t path' h).trans (descent_unique d p t path hp).symm⟩

/-! ### Examples -/

namespace CoverTree

/-- Sorts in descending order of keys. -/
def sampleSort (key : ℚ → ℚ) (l : List ℚ) : List ℚ := l.insertionSort fun a b => key b ≤ key a

theorem sampleSort_sorts : SortsDown sampleSort := fun key l => by
  have : Std.Total (fun a b : ℚ => key b ≤ key a) := ⟨fun a b => le_total _ _⟩
  have : IsTrans ℚ (fun a b : ℚ => key b ≤ key a) := ⟨fun _ _ _ h1 h2 => h2.trans h1⟩
  exact ⟨List.perm_insertionSort _ l, List.pairwise_insertionSort _ l⟩

end CoverTree

/-- C149. A tree that stores a point twice may lose one of its points: the points `0`, `1/4`, and `1/4` are inserted, and only two are left after `isHarmonic` for `1/4`. -/
theorem C149_lost :
    ((insertRange sampleDistance 5 [0, 1 / 4, 1 / 4]).map fun t => t.map points) = some (some [0, 1 / 4, 1 / 4]) ∧
      ((insertRange sampleDistance 5 [0, 1 / 4, 1 / 4]).bind fun t => (isHarmonic sampleDistance sampleSort 5 t (1 / 4)).map fun r => (r.1, r.2.map points)) = some (false, some [1 / 4, 0]) := by
  decide +kernel

/-- C149. The level of a tree may increase by `isHarmonic`, although the function is meant to decrease it: the tree of `2`, `3/2`, `1/2`, and `-1/2` has level 1, and level 2 afterwards. -/
theorem C149_raised :
    ((insertRange sampleDistance 5 [2, 3 / 2, 1 / 2, -1 / 2]).map fun t => t.map Node.level) = some (some 1) ∧
      ((insertRange sampleDistance 5 [2, 3 / 2, 1 / 2, -1 / 2]).bind fun t => (isHarmonic sampleDistance sampleSort 5 t (3 / 2)).map fun r => (r.1, r.2.map Node.level)) = some (true, some 2) := by
  decide +kernel

/-- A cover tree with four distinct points. -/
def sampleTree : Node ℚ := .mk (1 / 2) 1 [.mk 2 0 [.mk (3 / 2) (-1) []], .mk (-1 / 2) 0 []]

/-- The hypotheses of the theorems are met by a tree with distinct points ... -/
example : IsCoverTree sampleDistance sampleTree ∧ (points sampleTree).Nodup ∧ SortsDown sampleSort ∧ (∀ x y, sampleDistance x y = 0 ↔ x = y) :=
  ⟨(C43_is_valid _ _).1 (by decide +kernel), by decide +kernel, sampleSort_sorts, fun x y => by rw [sampleDistance, abs_eq_zero, sub_eq_zero]⟩

/-- ... and by a path through it. -/
example : Descent sampleDistance (3 / 2) sampleTree [(1 / 2, 1), (2, 0), (3 / 2, -1)] ∧ CoverDistances sampleDistance (3 / 2) [(1 / 2, 1), (2, 0), (3 / 2, -1)] [1, 1 / 2, 0] :=
  ⟨.step _ _ [] _ _ _ (by simp) (by decide +kernel) (.step _ _ [] [] _ _ (by simp) (by decide +kernel) (.stop _ _ _ (by simp))), _, rfl, by decide +kernel⟩

/-- The levels of the tree. -/
example : nodesByLevel (some sampleTree) = some [(-1, 3 / 2), (0, 2), (0, -1 / 2), (1, 1 / 2)] ∧ nodesToLevel (some sampleTree) = some [(1 / 2, 1), (2, 0), (-1 / 2, 0), (3 / 2, -1)] := by
  decide +kernel

/-- A point is stored at two levels. -/
example : nodesToLevel (some (.mk (0 : ℚ) 0 [.mk 0 (-1) []])) = some [(0, 0)] ∧ IsCoverTree sampleDistance (.mk (0 : ℚ) 0 [.mk 0 (-1) []]) :=
  ⟨by decide +kernel, (C43_is_valid _ _).1 (by decide +kernel)⟩

/-- If a tree stores a point twice, the function does not end for this point. -/
example : Descent sampleDistance 0 (.mk (0 : ℚ) 0 [.mk 0 (-1) []]) [(0, 0), (0, -1)] ∧ CoverDistances sampleDistance 0 [((0 : ℚ), 0), (0, -1)] [0, 0] :=
  ⟨.step _ _ [] [] _ _ (by simp) (by decide +kernel) (.stop _ _ _ (by simp)), _, rfl, by decide +kernel⟩

end Aleph
