import Verif.Model.PointCloud
import Verif.Spec.PointCloud
import Verif.Props.Strings

/-!
# C71, C72: point clouds
-/

namespace Aleph

namespace PointCloud

variable {α : Type}

/-- The points of a point cloud. -/
def Has (pc : PointCloud α) (rows : List (List α)) : Prop := Spec.HasPoints pc.n pc.d pc.points rows

theorem flatten_drop (d : ℕ) (rows : List (List α)) (h : ∀ r ∈ rows, r.length = d) :
    ∀ i, rows.flatten.drop (i * d) = (rows.drop i).flatten := by
  induction rows with
  | nil => intro i; simp
  | cons r rows ih =>
    intro i
    cases i with
    | zero => simp
    | succ i =>
      have hr : r.length = d := h r List.mem_cons_self
      rw [List.flatten_cons, List.drop_append, hr, Nat.succ_mul, Nat.add_sub_cancel, List.drop_succ_cons,
        ih (fun r hr => h r (List.mem_cons_of_mem _ hr)), List.drop_of_length_le (by omega), List.nil_append]

theorem flatten_take (d : ℕ) (rows : List (List α)) (h : ∀ r ∈ rows, r.length = d) :
    ∀ i, rows.flatten.take (i * d) = (rows.take i).flatten := by
  induction rows with
  | nil => intro i; simp
  | cons r rows ih =>
    intro i
    cases i with
    | zero => simp
    | succ i =>
      have hr : r.length = d := h r List.mem_cons_self
      rw [List.flatten_cons, List.take_append, hr, Nat.succ_mul, Nat.add_sub_cancel, List.take_succ_cons,
        ih (fun r hr => h r (List.mem_cons_of_mem _ hr)), List.take_of_length_le (by omega), List.flatten_cons]

/-- C71. A new point cloud has the given number of points, all coordinates of which are zero. -/
theorem _root_.Aleph.C71_new [Zero α] (n d : ℕ) :
    (make n d : PointCloud α).Has (List.replicate n (List.replicate d 0)) ∧ (make n d : PointCloud α).d = d ∧
    (empty : PointCloud α).Has [] := by
  refine ⟨⟨by simp [make], ?_, ?_⟩, rfl, ⟨rfl, by simp, rfl⟩⟩
  · intro r hr
    rw [List.eq_of_mem_replicate hr]; simp [make]
  · simp [make, List.flatten_replicate_replicate]

/-- C71. Reading a point returns it; an invalid index is rejected. -/
theorem _root_.Aleph.C71_get (pc : PointCloud α) (rows : List (List α)) (h : pc.Has rows) (i : ℕ) : pc.get i = rows[i]? := by
  obtain ⟨h1, h2, h3⟩ := h
  unfold get
  split
  · next hi => rw [List.getElem?_eq_none (by omega)]
  · next hi =>
    have hi' : i < rows.length := by omega
    simp only [h3]
    rw [flatten_drop pc.d rows h2, List.drop_eq_getElem_cons hi', List.flatten_cons,
      List.take_append_of_le_length (by rw [h2 _ (List.getElem_mem hi')]),
      List.take_of_length_le (by rw [h2 _ (List.getElem_mem hi')]), List.getElem?_eq_getElem hi']

/-- C71. Writing a point changes this point only; an invalid index and a wrong number of coordinates are rejected. -/
theorem _root_.Aleph.C71_set (pc : PointCloud α) (rows : List (List α)) (h : pc.Has rows) (i : ℕ) (v : List α) :
    (pc.set i v = none ↔ rows.length ≤ i ∨ v.length ≠ pc.d) ∧
    ∀ pc', pc.set i v = some pc' → pc'.d = pc.d ∧ pc'.Has (rows.set i v) := by
  obtain ⟨h1, h2, h3⟩ := h
  unfold set
  by_cases hi : i ≥ pc.n
  · rw [if_pos hi]
    exact ⟨⟨fun _ => Or.inl (by omega), fun _ => rfl⟩, fun pc' h => by cases h⟩
  · by_cases hv : v.length ≠ pc.d
    · rw [if_neg hi, if_pos hv]
      exact ⟨⟨fun _ => Or.inr hv, fun _ => rfl⟩, fun pc' h => by cases h⟩
    · rw [if_neg hi, if_neg hv]
      refine ⟨⟨(by intro h; cases h), fun h => ?_⟩, ?_⟩
      · rcases h with h | h
        · omega
        · exact absurd h hv
      · rintro pc' h
        cases h
        push Not at hv
        refine ⟨rfl, by simp [h1], ?_, ?_⟩
        · intro r hr
          rcases List.mem_or_eq_of_mem_set hr with hr | rfl
          · exact h2 r hr
          · exact hv
        · simp only [copyTo, h3]
          have hi' : i < rows.length := by omega
          rw [hv, Nat.mul_comm pc.d i, flatten_take pc.d rows h2,
            show i * pc.d + pc.d = (i + 1) * pc.d by rw [Nat.succ_mul], flatten_drop pc.d rows h2,
            List.set_eq_take_append_cons_drop, if_pos hi']
          simp

theorem copyLoop_spec (src : PointCloud α) (rows : List (List α)) (hs : src.Has rows) :
    ∀ (k j i : ℕ) (dst : PointCloud α) (R : List (List α)), dst.Has R → dst.d = src.d → j + k ≤ rows.length →
      i + k ≤ R.length →
      ∃ dst', copyLoop src k j i dst = some dst' ∧ dst'.d = src.d ∧
        dst'.Has (R.take i ++ (rows.drop j).take k ++ R.drop (i + k)) := by
  intro k
  induction k with
  | zero =>
    intro j i dst R hd hdd _ _
    exact ⟨dst, rfl, hdd, by simpa using hd⟩
  | succ k ih =>
    intro j i dst R hd hdd hj hi
    have hg := C71_get src rows hs j
    rw [List.getElem?_eq_getElem (by omega)] at hg
    have hlen : (rows[j]'(by omega)).length = src.d := hs.dimension _ (List.getElem_mem _)
    obtain ⟨s1, s2⟩ := C71_set dst R hd i (rows[j]'(by omega))
    cases hset : dst.set i (rows[j]'(by omega)) with
    | none =>
      rcases s1.1 hset with h | h
      · omega
      · rw [hlen, hdd] at h; simp at h
    | some dst1 =>
      obtain ⟨e1, e2⟩ := s2 dst1 hset
      obtain ⟨dst', f1, f2, f3⟩ := ih (j + 1) (i + 1) dst1 _ e2 (by rw [e1, hdd]) (by omega)
        (by rw [List.length_set]; omega)
      refine ⟨dst', ?_, f2, ?_⟩
      · rw [copyLoop, hg]
        simp only [Option.bind_eq_bind, Option.bind_some, hset, f1]
      · have e : (R.set i (rows[j]'(by omega))).take (i + 1) ++ (rows.drop (j + 1)).take k ++
            (R.set i (rows[j]'(by omega))).drop (i + 1 + k) =
            R.take i ++ (rows.drop j).take (k + 1) ++ R.drop (i + (k + 1)) := by
          rw [List.drop_set_of_lt (by omega), List.take_set, List.drop_eq_getElem_cons (i := j) (by omega),
            List.take_succ_cons, show i + 1 + k = i + (k + 1) by omega]
          have hi2 : i < R.length := by omega
          rw [List.take_add_one, List.getElem?_eq_getElem hi2, Option.toList_some,
            List.set_append_right _ _ (by simp; omega)]
          simp [List.length_take, Nat.min_eq_left hi2.le]
        rw [← e]
        exact f3

/-- C71. The concatenation of two point clouds of the same dimension consists of the points of the first one, followed by the
points of the second one; different dimensions are rejected. -/
theorem _root_.Aleph.C71_concatenation [Zero α] (a b : PointCloud α) (ra rb : List (List α)) (ha : a.Has ra) (hb : b.Has rb) :
    (a.d ≠ b.d → a.add b = none) ∧
    (a.d = b.d → ∃ c, a.add b = some c ∧ c.d = a.d ∧ c.Has (ra ++ rb)) := by
  constructor
  · intro h; simp [add, h]
  · intro h
    have hna := ha.count
    have hnb := hb.count
    obtain ⟨m1, m2, _⟩ := C71_new (α := α) (a.n + b.n) a.d
    obtain ⟨c1, f1, f2, f3⟩ := copyLoop_spec a ra ha a.n 0 0 _ _ m1 m2 (by omega) (by simp)
    obtain ⟨c2, g1, g2, g3⟩ := copyLoop_spec b rb hb b.n 0 a.n c1 _ f3 (by rw [f2, h]) (by omega) (by simp; omega)
    refine ⟨c2, ?_, by rw [g2, h], ?_⟩
    · unfold add
      rw [if_neg (by simpa using h), f1]
      exact g1
    · have e : ∀ (z : List (List α)), z.length = b.n →
          List.take a.n (ra ++ z) ++ List.take b.n rb ++ List.drop (a.n + b.n) (ra ++ z) = ra ++ rb := by
        intro z hz
        rw [hna, List.take_left, hnb, List.take_length, List.drop_of_length_le (by simp; omega), List.append_nil]
      have := e (List.drop a.n (List.replicate (a.n + b.n) (List.replicate a.d 0))) (by simp)
      simp only [List.take_zero, List.nil_append, List.drop_zero, Nat.zero_add] at g3
      rw [hna, List.take_length, ← hna] at g3
      rw [this] at g3
      exact g3

/-- C71. Two point clouds are equal if and only if they have the same dimension and the same points. -/
theorem _root_.Aleph.C71_equality [DecidableEq α] (a b : PointCloud α) (ra rb : List (List α)) (ha : a.Has ra) (hb : b.Has rb) :
    a.eq b = true ↔ a.d = b.d ∧ ra = rb := by
  have hl : ∀ (pc : PointCloud α) (r : List (List α)), pc.Has r → pc.points.length = pc.n * pc.d := by
    intro pc r h
    rw [h.array, List.length_flatten, h.count]
    have : r.map List.length = List.replicate r.length pc.d := by
      rw [List.eq_replicate_iff]
      exact ⟨by simp, fun x hx => by
        obtain ⟨y, hy, rfl⟩ := List.mem_map.1 hx
        exact h.dimension y hy⟩
    rw [this]; simp
  unfold eq
  simp only [Bool.and_eq_true, beq_iff_eq]
  constructor
  · rintro ⟨⟨h1, h2⟩, h3⟩
    refine ⟨h2, ?_⟩
    rw [List.take_of_length_le (by rw [hl a ra ha]), List.take_of_length_le (by rw [hl b rb hb, h1, h2])] at h3
    refine List.ext_getElem? fun i => ?_
    rw [← C71_get a ra ha, ← C71_get b rb hb]
    unfold get
    rw [h1, h2, h3]
  · rintro ⟨h1, rfl⟩
    refine ⟨⟨by rw [ha.count, hb.count], h1⟩, ?_⟩
    rw [ha.array, hb.array]

/-! ### C72: reading and writing -/

/-- The fields of a line. -/
def fields (line : List Char) : List (List Char) := Strings.split isSeparator (Strings.trim line)

theorem split_ne_nil (sep : Char → Bool) (s : List Char) : Strings.split sep s ≠ [] := by
  have := (C70_split sep s _).1 rfl
  intro h
  rw [h] at this
  cases this

theorem loadLoop_skip [Zero α] (convert : List Char → α) (n i d : ℕ) (pc : PointCloud α) (l : List Char)
    (ls : List (List Char)) (h : isSkipped l = true) :
    loadLoop convert n i d pc (l :: ls) = loadLoop convert n i d pc ls := by
  rw [loadLoop]; simp [h]

theorem loadLoop_ok [Zero α] (convert : List Char → α) (n d : ℕ) (hd : d ≠ 0) (ls : List (List Char)) :
    ∀ (i : ℕ) (pc : PointCloud α) (R : List (List α)), pc.Has R → pc.d = d →
      i + (ls.filter fun l => !isSkipped l).length ≤ R.length →
      (∀ l ∈ ls, isSkipped l = false → (fields l).length = d) →
      ∃ pc', loadLoop convert n i d pc ls = some pc' ∧ pc'.d = d ∧
        pc'.Has (R.take i ++ (ls.filter fun l => !isSkipped l).map (fun l => (fields l).map convert) ++
          R.drop (i + (ls.filter fun l => !isSkipped l).length)) := by
  induction ls with
  | nil => intro i pc R h h' _ _; exact ⟨pc, rfl, h', by simpa using h⟩
  | cons l ls ih =>
    intro i pc R h hd' hlen hf
    by_cases hs : isSkipped l = true
    · rw [loadLoop_skip _ _ _ _ _ _ _ hs]
      rw [List.filter_cons_of_neg (by simp [hs])] at hlen ⊢
      exact ih i pc R h hd' hlen fun l hl => hf l (List.mem_cons_of_mem _ hl)
    · have hs' : isSkipped l = false := by simpa using hs
      rw [List.filter_cons_of_pos (by simp [hs'])] at hlen ⊢
      rw [List.length_cons] at hlen
      have hfl := hf l List.mem_cons_self hs'
      obtain ⟨s1, s2⟩ := C71_set pc R h i ((fields l).map convert)
      have hne := split_ne_nil isSeparator (Strings.trim l)
      rw [loadLoop]
      simp only [hs', Bool.false_or, List.isEmpty_iff, hne, if_false, hd]
      cases hset : pc.set i ((fields l).map convert) with
      | none =>
        rcases s1.1 hset with h | h
        · omega
        · rw [List.length_map, hfl, hd'] at h; simp at h
      | some pc1 =>
        obtain ⟨e1, e2⟩ := s2 pc1 hset
        obtain ⟨pc', f1, f2, f3⟩ := ih (i + 1) pc1 _ e2 (by rw [e1, hd']) (by rw [List.length_set]; omega)
          fun l hl => hf l (List.mem_cons_of_mem _ hl)
        have hset' : pc.set i (List.map convert (Strings.split isSeparator (Strings.trim l))) = some pc1 := hset
        refine ⟨pc', by simp only [hset', f1], f2, ?_⟩
        have hi2 : i < R.length := by omega
        have e : (R.set i ((fields l).map convert)).take (i + 1) = R.take i ++ [(fields l).map convert] := by
          rw [List.take_set, List.take_add_one, List.getElem?_eq_getElem hi2, Option.toList_some,
            List.set_append_right _ _ (by simp; omega)]
          simp [List.length_take, Nat.min_eq_left hi2.le]
        rw [e, List.drop_set_of_lt (by omega)] at f3
        simp only [List.map_cons, List.length_cons, List.append_assoc, List.cons_append, List.nil_append] at f3 ⊢
        rw [show i + ((List.filter (fun l => !isSkipped l) ls).length + 1) =
          i + 1 + (List.filter (fun l => !isSkipped l) ls).length by omega]
        exact f3

theorem loadLoop_none [Zero α] (convert : List Char → α) (n d : ℕ) (hd : d ≠ 0) (ls : List (List Char)) :
    ∀ (i : ℕ) (pc : PointCloud α), pc.d = d →
      (pc.n < i + (ls.filter fun l => !isSkipped l).length ∧ (∃ l ∈ ls, isSkipped l = false) ∨
        ∃ l ∈ ls, isSkipped l = false ∧ (fields l).length ≠ d) →
      loadLoop convert n i d pc ls = none := by
  induction ls with
  | nil =>
    intro i pc _ h
    rcases h with ⟨_, l, hl, _⟩ | ⟨l, hl, _⟩ <;> simp at hl
  | cons l ls ih =>
    intro i pc hd' h
    by_cases hs : isSkipped l = true
    · rw [loadLoop_skip _ _ _ _ _ _ _ hs]
      rw [List.filter_cons_of_neg (by simp [hs])] at h
      refine ih i pc hd' ?_
      rcases h with ⟨h1, q, hq, h2⟩ | ⟨q, hq, h2, h3⟩
      · rcases List.mem_cons.1 hq with rfl | hq
        · rw [hs] at h2; cases h2
        · exact Or.inl ⟨h1, q, hq, h2⟩
      · rcases List.mem_cons.1 hq with rfl | hq
        · rw [hs] at h2; cases h2
        · exact Or.inr ⟨q, hq, h2, h3⟩
    · have hs' : isSkipped l = false := by simpa using hs
      rw [List.filter_cons_of_pos (by simp [hs']), List.length_cons] at h
      have hne := split_ne_nil isSeparator (Strings.trim l)
      rw [loadLoop]
      simp only [hs', Bool.false_or, List.isEmpty_iff, hne, if_false, hd]
      cases hset : pc.set i (List.map convert (Strings.split isSeparator (Strings.trim l))) with
      | none => rfl
      | some pc1 =>
        simp only
        unfold set at hset
        split at hset
        · cases hset
        · next hi =>
          split at hset
          · cases hset
          · next hv =>
            cases hset
            push Not at hv hi
            refine ih (i + 1) _ hd' ?_
            rcases h with ⟨h1, _⟩ | ⟨q, hq, h2, h3⟩
            · refine Or.inl ⟨by simp only; omega, ?_⟩
              by_contra hno
              push Not at hno
              have : (ls.filter fun l => !isSkipped l) = [] := by
                rw [List.filter_eq_nil_iff]
                intro q hq
                simp [hno q hq]
              rw [this] at h1
              simp at h1
              omega
            · rcases List.mem_cons.1 hq with rfl | hq
              · exfalso
                apply h3
                rw [List.length_map] at hv
                rw [← hd', ← hv]
                rfl
              · exact Or.inr ⟨q, hq, h2, h3⟩

theorem loadLoop_all_skipped [Zero α] (convert : List Char → α) (n i d : ℕ) (pc : PointCloud α) (ls : List (List Char))
    (h : ∀ l ∈ ls, isSkipped l = true) : loadLoop convert n i d pc ls = some pc := by
  induction ls with
  | nil => rfl
  | cons l ls ih =>
    rw [loadLoop_skip _ _ _ _ _ _ _ (h l List.mem_cons_self)]
    exact ih fun l hl => h l (List.mem_cons_of_mem _ hl)

/-- The loop until the first line with data. -/
theorem loadLoop_start [Zero α] (convert : List Char → α) (n : ℕ) (ls : List (List Char))
    (h : ∃ l ∈ ls, isSkipped l = false) :
    ∃ a l b, ls = a ++ l :: b ∧ (∀ q ∈ a, isSkipped q = true) ∧ isSkipped l = false ∧
      loadLoop convert n 0 0 empty ls =
        loadLoop convert n 0 (fields l).length (make n (fields l).length : PointCloud α) (l :: b) := by
  induction ls with
  | nil => obtain ⟨l, hl, _⟩ := h; simp at hl
  | cons l ls ih =>
    by_cases hs : isSkipped l = true
    · obtain ⟨a, l', b, h1, h2, h3, h4⟩ := ih (by
        obtain ⟨q, hq, hq'⟩ := h
        rcases List.mem_cons.1 hq with rfl | hq
        · rw [hs] at hq'; cases hq'
        · exact ⟨q, hq, hq'⟩)
      refine ⟨l :: a, l', b, by rw [h1]; rfl, ?_, h3, ?_⟩
      · intro q hq
        rcases List.mem_cons.1 hq with rfl | hq
        · exact hs
        · exact h2 q hq
      · rw [loadLoop_skip _ _ _ _ _ _ _ hs]
        exact h4
    · have hs' : isSkipped l = false := by simpa using hs
      refine ⟨[], l, ls, rfl, by simp, hs', ?_⟩
      have hne := split_ne_nil isSeparator (Strings.trim l)
      have hlen : (fields l).length ≠ 0 := by
        rw [Ne, List.length_eq_zero_iff]; exact hne
      rw [loadLoop, loadLoop]
      simp only [hs', Bool.false_or, List.isEmpty_iff, hne, if_false, if_true, hlen]
      rfl

theorem count_lines (text : List Char) (ls : List (List Char)) (b : Bool) (h : Spec.Lines text ls b) :
    text.count '\n' + (if b then 1 else 0) = ls.length := by
  induction h with
  | nil => rfl
  | last l hne hl => rw [List.count_eq_zero.2 hl]; rfl
  | cons l s ls b hl _ ih =>
    rw [List.count_append, List.count_eq_zero.2 hl, List.count_cons_self, List.length_cons, ← ih]
    omega

theorem isSkipped_eq (l : List Char) : (!isSkipped l) = Spec.holdsData (Strings.trim l) := by
  unfold isSkipped Spec.holdsData
  cases h : Strings.trim l with
  | nil => rfl
  | cons c r => rfl

theorem isSkipped_iff (l : List Char) : isSkipped l = false ↔ Spec.holdsData (Strings.trim l) = true := by
  rw [← isSkipped_eq]; simp

theorem filter_length (ls : List (List Char)) :
    (ls.filter isSkipped).length + (ls.filter fun l => !isSkipped l).length = ls.length := by
  induction ls with
  | nil => rfl
  | cons l ls ih =>
    by_cases h : isSkipped l = true
    · simp [h]; omega
    · simp [h]; omega

/-- C72. A text all lines of which are terminated gives one point per line with data, in this order, with one coordinate per
field, provided that all these lines have the same number of fields; otherwise it is rejected.  Without data, the point cloud is
empty.  Fields are separated by whitespace, commas, colons and semicolons.  Missing: texts without a final line feed, see
`C72_unterminated`. -/
theorem _root_.Aleph.C72_load_partial [Zero α] (convert : List Char → α) (text : List Char) (ls data : List (List Char))
    (h : Spec.Lines text ls false) (hdata : data = ls.filter fun l => Spec.holdsData (Strings.trim l)) :
    (∀ c, isSeparator c = true ↔ c ∈ [':', ';', ','] ∨ Strings.isSpace c = true) ∧
    (data = [] → load convert text = some empty) ∧
    (∀ d, data ≠ [] → (∀ l ∈ data, (Strings.split isSeparator (Strings.trim l)).length = d) →
      ∃ pc, load convert text = some pc ∧ pc.d = d ∧
        pc.Has (data.map fun l => (Strings.split isSeparator (Strings.trim l)).map convert)) ∧
    (∀ l ∈ data, ∀ l' ∈ data, (Strings.split isSeparator (Strings.trim l)).length ≠
      (Strings.split isSeparator (Strings.trim l')).length → load convert text = none) := by
  have hfilter : data = ls.filter fun l => !isSkipped l := by
    rw [hdata]; simp only [isSkipped_eq]
  have hsub : ∀ l ∈ data, l ∈ ls := fun l hl => by rw [hdata] at hl; exact (List.mem_filter.1 hl).1
  have hd1 : ∀ l ∈ data, Spec.holdsData (Strings.trim l) = true := fun l hl => by
    rw [hdata] at hl; exact (List.mem_filter.1 hl).2
  have hd2 : ∀ l ∈ ls, Spec.holdsData (Strings.trim l) = true → l ∈ data := fun l hl h => by
    rw [hdata]; exact List.mem_filter.2 ⟨hl, h⟩
  have hget := getlines_spec text ls false h
  have hcount := count_lines text ls false h
  simp only [Bool.false_eq_true, if_false, Nat.add_zero] at hcount
  have hfl := filter_length ls
  have hn : (((text.count '\n' : ℕ) : ℤ) - ((ls.filter isSkipped).length : ℕ)).toNat = data.length := by
    rw [hcount, hfilter]; omega
  have hload : ls ≠ [] → load convert text = loadLoop convert data.length 0 0 empty ls := by
    intro hne
    unfold load
    simp only [hget]
    rw [if_neg (by rw [hcount]; simpa using hne), hn]
  refine ⟨fun c => by simp [isSeparator, or_assoc], ?_, ?_, ?_⟩
  · intro he
    by_cases hls : ls = []
    · subst hls
      unfold load
      simp only [hcount, List.length_nil, if_true]
    · rw [hload hls]
      refine loadLoop_all_skipped _ _ _ _ _ _ fun l hl => ?_
      by_contra hs
      have := hd2 l hl ((isSkipped_iff l).1 (by simpa using hs))
      rw [he] at this
      simp at this
  · intro d hne hfd
    have hex : ∃ l ∈ ls, isSkipped l = false := by
      obtain ⟨l, hl⟩ := List.exists_mem_of_ne_nil data hne
      exact ⟨l, hsub l hl, (isSkipped_iff l).2 (hd1 l hl)⟩
    have hls : ls ≠ [] := by
      obtain ⟨l, hl, _⟩ := hex
      exact List.ne_nil_of_mem hl
    obtain ⟨a, l, b, h1, h2, h3, h4⟩ := loadLoop_start convert data.length ls hex
    have hlmem : l ∈ data := hd2 l (by rw [h1]; simp) ((isSkipped_iff l).1 h3)
    have hld : (fields l).length = d := hfd l hlmem
    have hd0 : d ≠ 0 := by
      rw [← hld, Ne, List.length_eq_zero_iff]; exact split_ne_nil _ _
    obtain ⟨m1, m2, _⟩ := C71_new (α := α) data.length d
    have hfilter2 : data = (l :: b).filter fun l => !isSkipped l := by
      rw [hfilter, h1, List.filter_append, List.filter_eq_nil_iff.2 (fun q hq => by simp [h2 q hq]), List.nil_append]
    obtain ⟨pc', f1, f2, f3⟩ := loadLoop_ok convert data.length d hd0 (l :: b) 0 _ _ m1 m2
      (by rw [← hfilter2]; simp) (fun q hq hq' => by
        have : q ∈ data := by rw [hfilter2]; simp [List.mem_filter, hq']; simpa using hq
        exact hfd q this)
    refine ⟨pc', ?_, f2, ?_⟩
    · rw [hload hls, h4, hld, f1]
    · rw [← hfilter2] at f3
      simpa [fields] using f3
  · intro q hq q' hq' hne
    have hex : ∃ l ∈ ls, isSkipped l = false := ⟨q, hsub q hq, (isSkipped_iff q).2 (hd1 q hq)⟩
    have hls : ls ≠ [] := List.ne_nil_of_mem (hsub q hq)
    obtain ⟨a, l, b, h1, h2, h3, h4⟩ := loadLoop_start convert data.length ls hex
    rw [hload hls, h4]
    have hmem : ∀ p ∈ data, p ∈ l :: b := by
      intro p hp
      have := hsub p hp
      rw [h1, List.mem_append] at this
      rcases this with h | h
      · have := h2 p h
        rw [(isSkipped_iff p).2 (hd1 p hp)] at this
        cases this
      · exact h
    refine loadLoop_none convert data.length _ ?_ (l :: b) 0 _ rfl (Or.inr ?_)
    · rw [Ne, List.length_eq_zero_iff]; exact split_ne_nil _ _
    · by_cases he : (fields q).length = (fields l).length
      · refine ⟨q', hmem q' hq', (isSkipped_iff q').2 (hd1 q' hq'), fun h => hne ?_⟩
        exact he.trans h.symm
      · exact ⟨q, hmem q hq, (isSkipped_iff q).2 (hd1 q hq), he⟩

/-- C72 (violation). If the last line of a text is not terminated, the points are not loaded: a text with a single line gives
the empty point cloud, any other text with data is rejected. -/
theorem _root_.Aleph.C72_unterminated [Zero α] (convert : List Char → α) (text : List Char) (ls : List (List Char))
    (h : Spec.Lines text ls true) :
    (ls.length = 1 → load convert text = some empty) ∧
    (ls.length ≠ 1 → (∃ l ∈ ls, Spec.holdsData (Strings.trim l) = true) → load convert text = none) ∧
    (ls.length ≠ 1 → (∀ l ∈ ls, Spec.holdsData (Strings.trim l) = false) → load convert text = some empty) := by
  have hget := getlines_spec text ls true h
  have hcount := count_lines text ls true h
  simp only [if_true] at hcount
  have hfl := filter_length ls
  have hload : ls.length ≠ 1 → load convert text =
      loadLoop convert ((ls.filter fun l => !isSkipped l).length - 1) 0 0 empty ls := by
    intro hne
    unfold load
    simp only [hget]
    have hn : (((text.count '\n' : ℕ) : ℤ) - ((ls.filter isSkipped).length : ℕ)).toNat =
        (ls.filter fun l => !isSkipped l).length - 1 := by omega
    rw [if_neg (by omega), hn]
  refine ⟨?_, ?_, ?_⟩
  · intro h1
    unfold load
    simp only
    rw [if_pos (by omega)]
  · rintro hne ⟨q, hq, hq'⟩
    have hex : ∃ l ∈ ls, isSkipped l = false := ⟨q, hq, (isSkipped_iff q).2 hq'⟩
    obtain ⟨a, l, b, h1, h2, h3, h4⟩ :=
      loadLoop_start (α := α) convert ((ls.filter fun l => !isSkipped l).length - 1) ls hex
    rw [hload hne, h4]
    have hfilter2 : (ls.filter fun l => !isSkipped l) = (l :: b).filter fun l => !isSkipped l := by
      rw [h1, List.filter_append, List.filter_eq_nil_iff.2 (fun q hq => by simp [h2 q hq]), List.nil_append]
    refine loadLoop_none convert _ _ ?_ (l :: b) 0 _ rfl (Or.inl ⟨?_, l, List.mem_cons_self, h3⟩)
    · rw [Ne, List.length_eq_zero_iff]; exact split_ne_nil _ _
    · simp only [make]
      rw [hfilter2, List.filter_cons_of_pos (by simp [h3]), List.length_cons]
      omega
  · intro hne hno
    rw [hload hne]
    refine loadLoop_all_skipped _ _ _ _ _ _ fun l hl => ?_
    by_contra hs
    have := (isSkipped_iff l).1 (by simpa using hs)
    rw [hno l hl] at this
    cases this

/-! ### Writing and reading -/

theorem trim_id (s : List Char) (h1 : ∀ c, s.head? = some c → Strings.isSpace c = false)
    (h2 : ∀ c, s.getLast? = some c → Strings.isSpace c = false) : Strings.trim s = s := by
  have hdrop : ∀ t : List Char, (∀ c, t.head? = some c → Strings.isSpace c = false) → t.dropWhile Strings.isSpace = t := by
    intro t ht
    cases t with
    | nil => rfl
    | cons c t => simp [List.dropWhile, ht c rfl]
  unfold Strings.trim Strings.ltrim Strings.rtrim
  rw [hdrop s.reverse (by rw [List.head?_reverse]; exact h2), List.reverse_reverse, hdrop s h1]

theorem fields_intercalate (ts : List (List Char)) (hne : ts ≠ []) (h : ∀ t ∈ ts, t ≠ [] ∧ ∀ c ∈ t, isSeparator c = false) :
    Spec.Fields isSeparator (List.intercalate ['\t'] ts) ts := by
  induction ts with
  | nil => exact absurd rfl hne
  | cons t ts ih =>
    have ht := h t List.mem_cons_self
    cases ts with
    | nil => simpa [List.intercalate] using Spec.Fields.last t ht.2
    | cons u us =>
      have hi := ih (by simp) fun t ht => h t (List.mem_cons_of_mem _ ht)
      have e : List.intercalate ['\t'] (t :: u :: us) = t ++ ['\t'] ++ List.intercalate ['\t'] (u :: us) := by
        simp [List.intercalate]
      rw [e]
      refine Spec.Fields.cons t ['\t'] _ _ ht.2 (by simp) (by decide) ?_ hi
      have hu := h u (by simp)
      obtain ⟨c, r, hr⟩ := List.exists_cons_of_ne_nil hu.1
      refine ⟨c, ?_⟩
      cases us with
      | nil => exact ⟨r, by simp [List.intercalate, hr], hu.2 c (by rw [hr]; simp)⟩
      | cons v vs => exact ⟨_, by simp [List.intercalate, hr]; rfl, hu.2 c (by rw [hr]; simp)⟩

theorem intercalate_ends (ts : List (List Char)) (h : ∀ t ∈ ts, t ≠ []) :
    (∀ c, (List.intercalate ['\t'] ts).head? = some c → ∃ t ∈ ts, t.head? = some c) ∧
    (∀ c, (List.intercalate ['\t'] ts).getLast? = some c → ∃ t ∈ ts, t.getLast? = some c) := by
  induction ts with
  | nil => constructor <;> intro c hc <;> simp [List.intercalate] at hc
  | cons t ts ih =>
    have ht := h t List.mem_cons_self
    cases ts with
    | nil =>
      constructor
      · intro c hc; exact ⟨t, by simp, by simpa [List.intercalate] using hc⟩
      · intro c hc; exact ⟨t, by simp, by simpa [List.intercalate] using hc⟩
    | cons u us =>
      obtain ⟨_, i2⟩ := ih fun t ht => h t (List.mem_cons_of_mem _ ht)
      have e : List.intercalate ['\t'] (t :: u :: us) = t ++ ['\t'] ++ List.intercalate ['\t'] (u :: us) := by
        simp [List.intercalate]
      rw [e]
      constructor
      · intro c hc
        refine ⟨t, by simp, ?_⟩
        obtain ⟨d, r, rfl⟩ := List.exists_cons_of_ne_nil ht
        simpa using hc
      · intro c hc
        have hne : List.intercalate ['\t'] (u :: us) ≠ [] := by
          have hu := h u (by simp)
          obtain ⟨d, r, rfl⟩ := List.exists_cons_of_ne_nil hu
          cases us <;> simp [List.intercalate]
        rw [List.getLast?_append_of_ne_nil _ hne] at hc
        obtain ⟨v, hv, hv'⟩ := i2 c hc
        exact ⟨v, List.mem_cons_of_mem _ hv, hv'⟩

/-- C72. Writing a point cloud and reading the result gives the same point cloud, whenever this holds for numbers. -/
theorem _root_.Aleph.C72_round_trip [Zero α] (convert : List Char → α) (write : α → List Char)
    (hw : ∀ x, convert (write x) = x ∧ write x ≠ [] ∧ (write x).head? ≠ some '#' ∧
      ∀ c ∈ write x, c ∉ [':', ';', ','] ∧ Strings.isSpace c = false)
    (pc : PointCloud α) (rows : List (List α)) (h : pc.Has rows) (hn : pc.n ≠ 0) (hd : pc.d ≠ 0) :
    load convert (print write pc) = some pc := by
  have hsep : ∀ c, isSeparator c = true ↔ c ∈ [':', ';', ','] ∨ Strings.isSpace c = true := fun c => by
    simp [isSeparator, or_assoc]
  have hws : ∀ x, ∀ c ∈ write x, isSeparator c = false := by
    intro x c hc
    obtain ⟨h1, h2⟩ := (hw x).2.2.2 c hc
    by_contra hne
    rcases (hsep c).1 (by simpa using hne) with h | h
    · exact h1 h
    · rw [h2] at h; cases h
  have hprint : print write pc = (rows.map fun r => writePoint write r ++ ['\n']).flatten := by
    unfold print
    congr 1
    apply List.ext_getElem?
    intro i
    rw [List.getElem?_map, List.getElem?_map]
    by_cases hi : i < pc.n
    · have hi' : i < rows.length := by rw [← h.count]; exact hi
      simp [hi, hi', C71_get pc rows h]
    · have hi' : rows.length ≤ i := by rw [← h.count]; omega
      simp [hi, hi']
  have hline : ∀ r ∈ rows, Strings.trim (writePoint write r) = writePoint write r ∧
      '\n' ∉ writePoint write r ∧ Spec.holdsData (writePoint write r) = true ∧
      Strings.split isSeparator (writePoint write r) = r.map write := by
    intro r hr
    have hrne : r.map write ≠ [] := by
      intro he
      have := h.dimension r hr
      rw [List.map_eq_nil_iff.1 he] at this
      exact hd this.symm
    have hts : ∀ t ∈ r.map write, t ≠ [] ∧ ∀ c ∈ t, isSeparator c = false := by
      intro t ht
      obtain ⟨x, _, rfl⟩ := List.mem_map.1 ht
      exact ⟨(hw x).2.1, hws x⟩
    have hf := fields_intercalate (r.map write) hrne hts
    obtain ⟨e1, e2⟩ := intercalate_ends (r.map write) fun t ht => (hts t ht).1
    have hsp : ∀ c, isSeparator c = false → Strings.isSpace c = false := by
      intro c hc
      by_contra hne
      have := (hsep c).2 (Or.inr (by simpa using hne))
      rw [hc] at this; cases this
    have hnl : ∀ ts : List (List Char), (∀ t ∈ ts, ∀ c ∈ t, isSeparator c = false) →
        '\n' ∉ List.intercalate ['\t'] ts := by
      intro ts
      induction ts with
      | nil => intro _; simp [List.intercalate]
      | cons t ts ih =>
        intro hts
        have h1 : '\n' ∉ t := fun hm => by
          have := hts t List.mem_cons_self _ hm
          revert this; decide
        cases ts with
        | nil => simpa [List.intercalate] using h1
        | cons u us =>
          have e : List.intercalate ['\t'] (t :: u :: us) = t ++ ['\t'] ++ List.intercalate ['\t'] (u :: us) := by
            simp [List.intercalate]
          rw [e]
          have := ih fun t ht => hts t (List.mem_cons_of_mem _ ht)
          simp [h1, this]
    refine ⟨?_, ?_, ?_, ?_⟩
    · apply trim_id
      · intro c hc
        obtain ⟨t, ht, ht'⟩ := e1 c hc
        exact hsp c ((hts t ht).2 c (List.mem_of_mem_head? ht'))
      · intro c hc
        obtain ⟨t, ht, ht'⟩ := e2 c hc
        exact hsp c ((hts t ht).2 c (List.mem_of_mem_getLast? ht'))
    · exact hnl _ fun t ht => (hts t ht).2
    · unfold Spec.holdsData
      cases hq : writePoint write r with
      | nil =>
        exfalso
        obtain ⟨x, xs, hx⟩ := List.exists_cons_of_ne_nil (List.map_eq_nil_iff.not.1 hrne)
        unfold writePoint at hq
        rw [hx] at hq
        have hne := (hw x).2.1
        cases xs <;> simp [List.intercalate, hne] at hq
      | cons c s =>
        obtain ⟨t, ht, ht'⟩ := e1 c (by unfold writePoint at hq; rw [hq]; rfl)
        obtain ⟨x, _, rfl⟩ := List.mem_map.1 ht
        have := (hw x).2.2.1
        rw [ht'] at this
        simpa using this
    · exact (C70_split _ _ _).2 hf
  have hlines : ∀ rs : List (List α), (∀ r ∈ rs, '\n' ∉ writePoint write r) →
      Spec.Lines (rs.map fun r => writePoint write r ++ ['\n']).flatten (rs.map (writePoint write)) false := by
    intro rs
    induction rs with
    | nil => intro _; exact Spec.Lines.nil
    | cons r rs ih =>
      intro hrs
      have := Spec.Lines.cons (writePoint write r) _ _ false (hrs r List.mem_cons_self)
        (ih fun r hr => hrs r (List.mem_cons_of_mem _ hr))
      simpa using this
  have hL := hlines rows fun r hr => (hline r hr).2.1
  have hdata : rows.map (writePoint write) =
      (rows.map (writePoint write)).filter fun l => Spec.holdsData (Strings.trim l) := by
    symm
    rw [List.filter_eq_self]
    intro l hl
    obtain ⟨r, hr, rfl⟩ := List.mem_map.1 hl
    rw [(hline r hr).1, (hline r hr).2.2.1]
  have hrows : rows ≠ [] := by
    intro he
    have := h.count
    rw [he] at this
    exact hn this
  obtain ⟨pc', p1, p2, p3⟩ := (C72_load_partial convert _ _ _ hL hdata).2.2.1 pc.d (by simpa using hrows) (by
    intro l hl
    obtain ⟨r, hr, rfl⟩ := List.mem_map.1 hl
    rw [(hline r hr).1, (hline r hr).2.2.2, List.length_map]
    exact h.dimension r hr)
  rw [hprint, p1]
  have e : (List.map (fun l => List.map convert (Strings.split isSeparator (Strings.trim l)))
      (List.map (writePoint write) rows)) = rows := by
    rw [List.map_map]
    conv_rhs => rw [← List.map_id rows]
    apply List.map_congr_left
    intro r hr
    simp only [Function.comp]
    rw [(hline r hr).1, (hline r hr).2.2.2, List.map_map]
    conv_rhs => rw [id, ← List.map_id r]
    apply List.map_congr_left
    intro x _
    exact (hw x).1
  rw [e] at p3
  obtain ⟨n', d', a'⟩ := pc'
  obtain ⟨n, d, a⟩ := pc
  obtain ⟨q1, _, q3⟩ := p3
  obtain ⟨r1, _, r3⟩ := h
  simp only at *
  rw [q1, q3, r1, r3, p2]

/-- The hypotheses of the round trip hold for numbers in the unary system. -/
example (pc : PointCloud ℕ) (rows : List (List ℕ)) (h : pc.Has rows) (hn : pc.n ≠ 0) (hd : pc.d ≠ 0) :
    load (fun s => s.length - 1) (print (fun n => List.replicate (n + 1) '1') pc) = some pc := by
  refine C72_round_trip _ _ (fun x => ⟨by simp, by simp, by simp [List.head?_replicate], fun c hc => ?_⟩) pc rows h hn hd
  rw [List.eq_of_mem_replicate hc]
  decide

/-- Reading of natural numbers, for the examples. -/
def readNat (s : List Char) : ℕ := s.foldl (fun n c => 10 * n + (c.toNat - '0'.toNat)) 0

example : load readNat "# points\n1 2\n\n30,4\n".toList = some ⟨2, 2, [1, 2, 30, 4]⟩ := by decide

/-- Without the last line feed, the same points are not read. -/
example : load readNat "1 2\n30 4".toList = none ∧ load readNat "1 2".toList = some empty := by decide

example : (⟨2, 2, [1, 2, 30, 4]⟩ : PointCloud ℕ).add ⟨1, 2, [5, 6]⟩ = some ⟨3, 2, [1, 2, 30, 4, 5, 6]⟩ := by decide

example : (⟨2, 2, [1, 2, 30, 4]⟩ : PointCloud ℕ).Has [[1, 2], [30, 4]] := ⟨rfl, by simp, rfl⟩

end PointCloud

end Aleph
