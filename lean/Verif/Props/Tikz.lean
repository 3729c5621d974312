import Verif.Model.Tikz
import Verif.Spec.Tikz
import Verif.Props.GmlWriter
import Verif.Props.LinesAndPoints

/-!
# C140: output of pictures for TikZ
-/

namespace Aleph.Tikz

open Spec Spec.Plot Spec.Tikz

variable {α β : Type}

/-- The appearance of a picture. -/
def style (o : Options) (number : ℚ → List Char) : Style where
  labels := o.showVertexLabels
  dotColour := o.pointColour
  dotSize := number o.pointSize
  ballColour := o.ballColour
  ballOpacity := number o.ballOpacity
  ballRadius := number o.ballRadius
  triangleColour := o.triangleColour
  triangleOpacity := number o.triangleOpacity
  lineColour := o.lineColour
  lineWidth := number o.lineWidth

/-- Options that are obtained from the default options by the functions of the class. -/
inductive Reachable : Options → Prop
  | default : Reachable {}
  | labels (o : Options) (b : Bool) : Reachable o → Reachable (setShowVertexLabels o b)
  | pointSize (o : Options) (x : ℚ) : Reachable o → Reachable (setPointSize o x)
  | pointColour (o : Options) (c : List Char) : Reachable o → Reachable (setPointColour o c)
  | lineColour (o : Options) (c : List Char) : Reachable o → Reachable (setLineColour o c)
  | balls (o : Options) (b : Bool) : Reachable o → Reachable (setShowBalls o b)
  | ballRadius (o : Options) (x : ℚ) : Reachable o → Reachable (setBallRadius o x)
  | triangles (o : Options) (b : Bool) : Reachable o → Reachable (setShowTriangles o b)
  | triangleColour (o : Options) (c : List Char) : Reachable o → Reachable (setTriangleColour o c)
  | triangleOpacity (o : Options) (x : ℚ) : Reachable o → Reachable (setTriangleOpacity o x)

theorem reachable_units {o : Options} (h : Reachable o) : o.labelPosition = "above".toList ∧ o.pointSizeUnit = "pt".toList ∧ o.lineWidthUnit = "mm".toList ∧
    o.ballColour = "black".toList ∧ o.ballOpacity = 1 / 10 ∧ o.lineWidth = 1 / 2 := by
  induction h with
  | default => exact ⟨rfl, rfl, rfl, rfl, rfl, rfl⟩
  | labels _ _ _ ih => exact ih
  | pointSize _ _ _ ih => exact ih
  | pointColour _ _ _ ih => exact ih
  | lineColour _ _ _ ih => exact ih
  | balls _ _ _ ih => exact ih
  | ballRadius _ _ _ ih => exact ih
  | triangles _ _ _ ih => exact ih
  | triangleColour _ _ _ ih => exact ih
  | triangleOpacity _ _ _ ih => exact ih

theorem decimal_spec (n : ℕ) : Decimal (Utilities.decimal n) n := GmlWriter.decimal_numeral n

theorem decimal_newline (n : ℕ) : '\n' ∉ Utilities.decimal n := by
  intro h
  have := (decimal_spec n).1.2.1 _ h
  have : ('\n' : Char).toNat = 10 := rfl
  omega

/-- A text consists of the lines of commands. -/
def Consists (coordinate : β → List Char) (s : Style) (commands : List (Command β)) (text : List Char) : Prop :=
  ∃ ls : List (List Char), text = ls.flatMap (fun l => l ++ ['\n']) ∧ List.Forall₂ (Renders coordinate s) commands ls

theorem Consists.append {coordinate : β → List Char} {s : Style} {c c' : List (Command β)} {t t' : List Char} (h : Consists coordinate s c t) (h' : Consists coordinate s c' t') :
    Consists coordinate s (c ++ c') (t ++ t') := by
  obtain ⟨ls, rfl, h2⟩ := h
  obtain ⟨ms, rfl, h4⟩ := h'
  exact ⟨ls ++ ms, by rw [List.flatMap_append], List.rel_append h2 h4⟩

theorem Consists.nil (coordinate : β → List Char) (s : Style) : Consists coordinate s [] [] := ⟨[], rfl, .nil⟩

theorem renders_newline {coordinate : β → List Char} {s : Style} (hs : Plain s) (hc : ∀ x, '\n' ∉ coordinate x) {c : Command β} {l : List Char} (h : Renders coordinate s c l) : '\n' ∉ l := by
  have hd : ∀ (d : List Char) (v : ℕ), Decimal d v → '\n' ∉ d := by
    intro d v hd hm
    have := hd.1.2.1 _ hm
    have : ('\n' : Char).toNat = 10 := rfl
    omega
  obtain ⟨h1, h2, h3, h4, h5, h6, h7, h8, h9⟩ := hs
  cases c with
  | declare v x y =>
    obtain ⟨d, hdv, rfl⟩ := h
    have := hd d v hdv
    split_ifs <;> simp [this, hc]
  | dot v =>
    obtain ⟨d, hdv, rfl⟩ := h
    have := hd d v hdv
    simp [*]
  | ball v =>
    obtain ⟨d, hdv, rfl⟩ := h
    have := hd d v hdv
    simp [*]
  | fill u v w =>
    obtain ⟨d, e, f, hdv, hev, hfv, rfl⟩ := h
    have := hd d u hdv
    have := hd e v hev
    have := hd f w hfv
    simp [*]
  | line u v =>
    obtain ⟨d, e, hdv, hev, rfl⟩ := h
    have := hd d u hdv
    have := hd e v hev
    simp [*]

theorem renders_head {coordinate : β → List Char} {s : Style} {c : Command β} {l : List Char} (h : Renders coordinate s c l) : l.head? = some '\\' := by
  cases c with
  | declare v x y => obtain ⟨d, _, rfl⟩ := h; rfl
  | dot v => obtain ⟨d, _, rfl⟩ := h; rfl
  | ball v => obtain ⟨d, _, rfl⟩ := h; rfl
  | fill u v w => obtain ⟨d, e, f, _, _, _, rfl⟩ := h; rfl
  | line u v => obtain ⟨d, e, _, _, rfl⟩ := h; rfl

theorem point_spec {o : Options} (ho : Reachable o) (coordinate : β → List Char) (number : ℚ → List Char) (v : ℕ) (x y : β) :
    Consists coordinate (style o number) (.declare v x y :: .dot v :: if o.showBalls then [.ball v] else []) (point o coordinate number v x y) := by
  obtain ⟨h1, h2, _, _⟩ := reachable_units ho
  have hd := decimal_spec v
  unfold point
  rw [h1, h2]
  by_cases hb : o.showBalls = true
  · rw [if_pos hb, if_pos hb]
    refine ⟨[_, _, _], ?_, .cons ⟨_, hd, rfl⟩ (.cons ⟨_, hd, rfl⟩ (.cons ⟨_, hd, rfl⟩ .nil))⟩
    by_cases hl : o.showVertexLabels = true <;> simp [style, hl]
  · rw [if_neg hb, if_neg hb]
    refine ⟨[_, _], ?_, .cons ⟨_, hd, rfl⟩ (.cons ⟨_, hd, rfl⟩ .nil)⟩
    by_cases hl : o.showVertexLabels = true <;> simp [style, hl]

theorem edge_spec {o : Options} (ho : Reachable o) (coordinate : β → List Char) (number : ℚ → List Char) (u v : ℕ) :
    Consists coordinate (style o number) [.line u v] (edge o number u v) := by
  obtain ⟨_, _, h3, _⟩ := reachable_units ho
  unfold edge
  rw [h3]
  refine ⟨[_], ?_, .cons ⟨_, _, decimal_spec u, decimal_spec v, rfl⟩ .nil⟩
  simp [style]

theorem triangle_spec (o : Options) (coordinate : β → List Char) (number : ℚ → List Char) (u v w : ℕ) :
    Consists coordinate (style o number) [.fill u v w] (triangle o number u v w) := by
  unfold triangle
  refine ⟨[_], ?_, .cons ⟨_, _, _, decimal_spec u, decimal_spec v, decimal_spec w, rfl⟩ .nil⟩
  simp [style]

theorem vertices_cons (s : Simplex α) (K : Complex α) : vertices (s :: K) = (match s.vertices with | [u] => [u] | _ => []) ++ vertices K := by
  unfold vertices
  rw [List.filterMap_cons]
  rcases s.vertices with _ | ⟨a, _ | ⟨b, _ | ⟨c, _ | ⟨d, l⟩⟩⟩⟩ <;> rfl

theorem edges_cons (s : Simplex α) (K : Complex α) : edges (s :: K) = (match s.vertices with | [u, v] => [(u, v)] | _ => []) ++ edges K := by
  unfold edges
  rw [List.filterMap_cons]
  rcases s.vertices with _ | ⟨a, _ | ⟨b, _ | ⟨c, _ | ⟨d, l⟩⟩⟩⟩ <;> rfl

theorem triangles_cons (s : Simplex α) (K : Complex α) : triangles (s :: K) = (match s.vertices with | [u, v, w] => [(u, v, w)] | _ => []) ++ triangles K := by
  unfold triangles
  rw [List.filterMap_cons]
  rcases s.vertices with _ | ⟨a, _ | ⟨b, _ | ⟨c, _ | ⟨d, l⟩⟩⟩⟩ <;> rfl

theorem edges_spec {o : Options} (ho : Reachable o) (coordinate : β → List Char) (number : ℚ → List Char) (K : Complex α) :
    Consists coordinate (style o number) ((edges K).map fun e => .line e.1 e.2) (K.flatMap (edgeOf o number)) := by
  induction K with
  | nil => exact .nil _ _
  | cons s K ih =>
    rw [edges_cons, List.map_append, List.flatMap_cons]
    refine Consists.append ?_ ih
    unfold edgeOf
    rcases s.vertices with _ | ⟨a, _ | ⟨b, _ | ⟨c, l⟩⟩⟩
    · exact .nil _ _
    · exact .nil _ _
    · exact edge_spec ho coordinate number a b
    · exact .nil _ _

theorem triangles_spec (o : Options) (coordinate : β → List Char) (number : ℚ → List Char) (K : Complex α) :
    Consists coordinate (style o number) ((triangles K).map fun t => .fill t.1 t.2.1 t.2.2) (K.flatMap (triangleOf o number)) := by
  induction K with
  | nil => exact .nil _ _
  | cons s K ih =>
    rw [triangles_cons, List.map_append, List.flatMap_cons]
    refine Consists.append ?_ ih
    unfold triangleOf
    rcases s.vertices with _ | ⟨a, _ | ⟨b, _ | ⟨c, _ | ⟨d, l⟩⟩⟩⟩
    · exact .nil _ _
    · exact .nil _ _
    · exact .nil _ _
    · exact triangle_spec o coordinate number a b c
    · exact .nil _ _

theorem points_spec {o : Options} (ho : Reachable o) (coordinate : β → List Char) (number : ℚ → List Char) (container : List (List β)) (K : Complex α)
    (h : ∀ u ∈ vertices K, ∃ p, container[u]? = some p ∧ 2 ≤ p.length) :
    ∃ ts, K.mapM (pointOf o coordinate number container) = .ok ts ∧
      Consists coordinate (style o number) ((vertices K).flatMap (vertexCommands o.showBalls container)) ts.flatten := by
  induction K with
  | nil => exact ⟨[], rfl, .nil _ _⟩
  | cons s K ih =>
    rw [vertices_cons] at h ⊢
    obtain ⟨ts, h1, h2⟩ := ih fun u hu => h u (List.mem_append_right _ hu)
    have : ∃ t, pointOf o coordinate number container s = .ok t ∧
        Consists coordinate (style o number) ((match s.vertices with | [u] => [u] | _ => []).flatMap (vertexCommands o.showBalls container)) t := by
      unfold pointOf
      generalize s.vertices = w at h ⊢
      rcases w with _ | ⟨u, _ | ⟨b, l⟩⟩
      · exact ⟨[], rfl, .nil _ _⟩
      · obtain ⟨p, hp, hl⟩ := h u (List.mem_append_left _ (by simp))
        match p, hl with
        | x :: y :: q, _ =>
          refine ⟨point o coordinate number u x y, by simp only [hp], ?_⟩
          rw [List.flatMap_cons, List.flatMap_nil, List.append_nil]
          unfold vertexCommands
          rw [hp]
          exact point_spec ho coordinate number u x y
      · exact ⟨[], rfl, .nil _ _⟩
    obtain ⟨t, h3, h4⟩ := this
    refine ⟨t :: ts, ?_, ?_⟩
    · rw [List.mapM_cons, h3, h1]; rfl
    · rw [List.flatMap_append, List.flatten_cons]
      exact h4.append h2

theorem filter_rendered {coordinate : β → List Char} {s : Style} {cs : List (Command β)} {ls : List (List Char)} (h : List.Forall₂ (Renders coordinate s) cs ls) :
    ls.filter (fun l => decide (l.head? ≠ some '%')) = ls := by
  apply List.filter_eq_self.2
  intro l hl
  obtain ⟨c, _, hc⟩ : ∃ c ∈ cs, Renders coordinate s c l := by
    clear * - h hl
    induction h with
    | nil => simp at hl
    | cons h1 _ ih =>
      rcases List.mem_cons.1 hl with rfl | hl
      · exact ⟨_, List.mem_cons_self, h1⟩
      · obtain ⟨c, hc, hr⟩ := ih hl
        exact ⟨c, List.mem_cons_of_mem _ hc, hr⟩
  rw [renders_head hc]
  decide

theorem rendered_newline {coordinate : β → List Char} {s : Style} (hs : Plain s) (hc : ∀ x, '\n' ∉ coordinate x) {cs : List (Command β)} {ls : List (List Char)}
    (h : List.Forall₂ (Renders coordinate s) cs ls) : ∀ l ∈ ls, '\n' ∉ l := by
  induction h with
  | nil => simp
  | cons h1 _ ih =>
    intro l hl
    rcases List.mem_cons.1 hl with rfl | hl
    · exact renders_newline hs hc h1
    · exact ih l hl

/-- **C140 (picture).** If all vertices have at least two coordinates, the output is a picture: every vertex of the complex is declared at the position given by its first two coordinates, and
is drawn as a dot and, if requested, as a ball; then follow the triangles of the complex, if requested, and its edges, all of them in their order in the complex. -/
theorem _root_.Aleph.C140_picture {o : Options} (ho : Reachable o) (coordinate : β → List Char) (number : ℚ → List Char) (K : Complex α) (container : List (List β))
    (hc : ∀ x, '\n' ∉ coordinate x) (hs : Plain (style o number)) (h : ∀ u ∈ vertices K, ∃ p, container[u]? = some p ∧ 2 ≤ p.length) :
    ∃ text, write o coordinate number K container = .ok text ∧ Picture coordinate (style o number) (commands o.showBalls o.showTriangles container K) text := by
  obtain ⟨ts, h1, ls, e1, f1⟩ := points_spec ho coordinate number container K h
  obtain ⟨ms, e2, f2⟩ := triangles_spec o coordinate number K
  obtain ⟨ns, e3, f3⟩ := edges_spec ho coordinate number K
  refine ⟨_, by unfold write; rw [h1], ?_⟩
  have n1 := rendered_newline hs hc f1
  have n2 := rendered_newline hs hc f2
  have n3 := rendered_newline hs hc f3
  have g1 := filter_rendered f1
  have g2 := filter_rendered f2
  have g3 := filter_rendered f3
  rw [e1, e2, e3]
  unfold commands
  by_cases ht : o.showTriangles = true
  · rw [if_pos ht, if_pos ht]
    refine ⟨["% 0-simplices".toList] ++ ls ++ (["% 2-simplices".toList] ++ ms) ++ ["% 1-simplices".toList] ++ ns, ?_, ?_⟩
    · refine SparseReader.lines_flat ?_ ?_
      · simp
      · intro l hl
        simp only [List.mem_append, List.mem_singleton] at hl
        rcases hl with (rfl | ((((rfl | hl) | (rfl | hl)) | rfl) | hl)) | rfl
        · decide
        · decide
        · exact n1 l hl
        · decide
        · exact n2 l hl
        · decide
        · exact n3 l hl
        · decide
    · simp only [List.filter_append, g1, g2, g3]
      have : ∀ l : List Char, l.head? = some '%' → [l].filter (fun l => decide (l.head? ≠ some '%')) = [] := by
        intro l hl
        rw [List.filter_cons, if_neg (by simp [hl]), List.filter_nil]
      rw [this _ rfl, this _ rfl, this _ rfl, List.nil_append, List.nil_append, List.append_nil]
      exact List.rel_append (List.rel_append f1 f2) f3
  · rw [if_neg ht, if_neg ht]
    refine ⟨["% 0-simplices".toList] ++ ls ++ ["% 1-simplices".toList] ++ ns, ?_, ?_⟩
    · refine SparseReader.lines_flat ?_ ?_
      · simp
      · intro l hl
        simp only [List.mem_append, List.mem_singleton] at hl
        rcases hl with (rfl | (((rfl | hl) | rfl) | hl)) | rfl
        · decide
        · decide
        · exact n1 l hl
        · decide
        · exact n3 l hl
        · decide
    · simp only [List.filter_append, g1, g3]
      have : ∀ l : List Char, l.head? = some '%' → [l].filter (fun l => decide (l.head? ≠ some '%')) = [] := by
        intro l hl
        rw [List.filter_cons, if_neg (by simp [hl]), List.filter_nil]
      rw [this _ rfl, this _ rfl, List.nil_append, List.append_nil, List.append_nil]
      exact List.rel_append f1 f3

theorem declared_append {a b : List (Command β)} (ha : Declared a) (hb : ∀ p c q, b = p ++ c :: q → ∀ v ∈ uses c, ∃ x y, Command.declare v x y ∈ a ++ p) : Declared (a ++ b) := by
  intro p c q e v hv
  rcases List.append_eq_append_iff.1 e with ⟨r, h1, h2⟩ | ⟨r, h1, h2⟩
  · rw [h1]
    exact hb r c q h2 v hv
  · cases r with
    | nil =>
      rw [List.append_nil] at h1
      rw [← h1]
      have := hb [] c q h2.symm v hv
      rwa [List.append_nil] at this
    | cons d r =>
      rw [List.cons_append, List.cons.injEq] at h2
      obtain ⟨rfl, h2⟩ := h2
      exact ha p c r h1 v hv

theorem declared_vertex (balls : Bool) (container : List (List β)) (u : ℕ) : Declared (vertexCommands balls container u) := by
  unfold vertexCommands
  split
  · next x y l h =>
    intro p c q e v hv
    rcases p with _ | ⟨d, p⟩
    · rw [List.nil_append, List.cons.injEq] at e
      rw [← e.1] at hv
      simp [uses] at hv
    · rw [List.cons_append, List.cons.injEq] at e
      obtain ⟨rfl, e⟩ := e
      have hm : c ∈ p ++ c :: q := by simp
      rw [← e] at hm
      refine ⟨x, y, ?_⟩
      have : v = u := by
        cases balls
        · have : c = .dot u := by simpa using hm
          rw [this] at hv
          simpa [uses] using hv
        · have : c = .dot u ∨ c = .ball u := by simpa using hm
          rcases this with h | h <;> rw [h] at hv <;> simpa [uses] using hv
      rw [this]
      exact List.mem_cons_self
  · intro p c q e
    simp at e

theorem declared_vertices (balls : Bool) (container : List (List β)) (l : List ℕ) : Declared (l.flatMap (vertexCommands balls container)) := by
  induction l with
  | nil =>
    intro p c q e
    simp at e
  | cons u l ih =>
    rw [List.flatMap_cons]
    refine declared_append (declared_vertex _ _ _) fun p c q e v hv => ?_
    obtain ⟨x, y, h⟩ := ih p c q e v hv
    exact ⟨x, y, List.mem_append_right _ h⟩

theorem declare_vertices {balls : Bool} {container : List (List β)} {l : List ℕ} {v : ℕ} (hv : v ∈ l) (h : ∃ p, container[v]? = some p ∧ 2 ≤ p.length) :
    ∃ x y, Command.declare v x y ∈ l.flatMap (vertexCommands balls container) := by
  obtain ⟨p, hp, hl⟩ := h
  match p, hl with
  | x :: y :: q, _ =>
    refine ⟨x, y, List.mem_flatMap.2 ⟨v, hv, ?_⟩⟩
    unfold vertexCommands
    rw [hp]
    exact List.mem_cons_self

theorem declare_mem {balls fills : Bool} {container : List (List β)} {K : Complex α} {v : ℕ} {x y : β} (h : Command.declare v x y ∈ commands balls fills container K) : v ∈ vertices K := by
  unfold commands at h
  rw [List.mem_append, List.mem_append] at h
  rcases h with (h | h) | h
  · obtain ⟨u, hu, h⟩ := List.mem_flatMap.1 h
    unfold vertexCommands at h
    split at h
    · have : v = u := by
        cases balls
        · have h' := h
          simp at h'
          exact h'.1
        · have h' := h
          simp at h'
          exact h'.1
      rwa [this]
    · simp at h
  · split at h
    · simp at h
    · simp at h
  · simp at h

theorem mem_vertices {K : Complex α} {v : ℕ} : v ∈ vertices K ↔ ∃ s ∈ K, s.vertices = [v] := by
  unfold vertices
  rw [List.mem_filterMap]
  refine exists_congr fun s => and_congr_right fun _ => ?_
  rcases s.vertices with _ | ⟨a, _ | ⟨b, l⟩⟩ <;> simp

theorem mem_edges {K : Complex α} {e : ℕ × ℕ} : e ∈ edges K ↔ ∃ s ∈ K, s.vertices = [e.1, e.2] := by
  unfold edges
  rw [List.mem_filterMap]
  refine exists_congr fun s => and_congr_right fun _ => ?_
  rcases e with ⟨u, v⟩
  rcases s.vertices with _ | ⟨a, _ | ⟨b, _ | ⟨c, l⟩⟩⟩ <;> simp

theorem mem_triangles {K : Complex α} {t : ℕ × ℕ × ℕ} : t ∈ triangles K ↔ ∃ s ∈ K, s.vertices = [t.1, t.2.1, t.2.2] := by
  unfold triangles
  rw [List.mem_filterMap]
  refine exists_congr fun s => and_congr_right fun _ => ?_
  rcases t with ⟨u, v, w⟩
  rcases s.vertices with _ | ⟨a, _ | ⟨b, _ | ⟨c, _ | ⟨d, l⟩⟩⟩⟩ <;> simp

theorem use_of_declared {cs : List (Command β)} (h : Declared cs) {c : Command β} (hc : c ∈ cs) {v : ℕ} (hv : v ∈ uses c) : ∃ x y, Command.declare v x y ∈ cs := by
  obtain ⟨a, b, e⟩ := List.append_of_mem hc
  obtain ⟨x, y, h⟩ := h a c b e v hv
  exact ⟨x, y, by rw [e]; exact List.mem_append_left _ h⟩

theorem declared_iff {o : Options} (K : Complex α) (container : List (List β)) (h : ∀ u ∈ vertices K, ∃ p, container[u]? = some p ∧ 2 ≤ p.length) :
    Declared (commands o.showBalls o.showTriangles container K) ↔
      ∀ s ∈ K, s.vertices.length = 2 ∨ s.vertices.length = 3 ∧ o.showTriangles = true → ∀ v ∈ s.vertices, ∃ t ∈ K, t.vertices = [v] := by
  refine ⟨?_, ?_⟩
  · intro hd s hs hl v hv
    rw [← mem_vertices]
    rcases hl with hl | ⟨hl, ht⟩
    · obtain ⟨a, b, e⟩ := List.length_eq_two.1 hl
      have hm : Command.line a b ∈ commands o.showBalls o.showTriangles container K := by
        unfold commands
        exact List.mem_append_right _ (List.mem_map.2 ⟨(a, b), mem_edges.2 ⟨s, hs, e⟩, rfl⟩)
      obtain ⟨x, y, hx⟩ := use_of_declared hd hm (v := v) (by rw [e] at hv; exact hv)
      exact declare_mem hx
    · obtain ⟨a, b, c, e⟩ := List.length_eq_three.1 hl
      have hm : Command.fill a b c ∈ commands o.showBalls o.showTriangles container K := by
        unfold commands
        rw [if_pos ht]
        exact List.mem_append_left _ (List.mem_append_right _ (List.mem_map.2 ⟨(a, b, c), mem_triangles.2 ⟨s, hs, e⟩, rfl⟩))
      obtain ⟨x, y, hx⟩ := use_of_declared hd hm (v := v) (by rw [e] at hv; exact hv)
      exact declare_mem hx
  · intro hv
    unfold commands
    rw [List.append_assoc]
    refine declared_append (declared_vertices _ _ _) ?_
    intro p c q e v hu
    have hm : c ∈ p ++ c :: q := by simp
    rw [← e, List.mem_append] at hm
    have : v ∈ vertices K := by
      rw [mem_vertices]
      rcases hm with hm | hm
      · split at hm
        · next ht =>
          obtain ⟨t, htm, rfl⟩ := List.mem_map.1 hm
          obtain ⟨s, hs, e⟩ := mem_triangles.1 htm
          refine hv s hs (Or.inr ⟨by rw [e]; rfl, ht⟩) v ?_
          rw [e]
          exact hu
        · simp at hm
      · obtain ⟨t, htm, rfl⟩ := List.mem_map.1 hm
        obtain ⟨s, hs, e⟩ := mem_edges.1 htm
        refine hv s hs (Or.inl (by rw [e]; rfl)) v ?_
        rw [e]
        exact hu
    obtain ⟨x, y, hx⟩ := declare_vertices (balls := o.showBalls) this (h v this)
    exact ⟨x, y, List.mem_append_left _ hx⟩

/-- **C140 (declarations).** The output is a picture whose positions are all declared before they are used if and only if the end points of all edges and, if triangles are shown, the vertices of all
triangles belong to the complex; in particular this holds for all complexes that contain the faces of their simplices. -/
theorem _root_.Aleph.C140_declared {o : Options} (ho : Reachable o) (coordinate : β → List Char) (number : ℚ → List Char) (K : Complex α) (container : List (List β))
    (hc : ∀ x, '\n' ∉ coordinate x) (hs : Plain (style o number)) (h : ∀ u ∈ vertices K, ∃ p, container[u]? = some p ∧ 2 ≤ p.length) :
    ∃ text commands, write o coordinate number K container = .ok text ∧ Picture coordinate (style o number) commands text ∧
      (Declared commands ↔ ∀ s ∈ K, s.vertices.length = 2 ∨ s.vertices.length = 3 ∧ o.showTriangles = true → ∀ v ∈ s.vertices, ∃ t ∈ K, t.vertices = [v]) := by
  obtain ⟨text, h1, h2⟩ := C140_picture ho coordinate number K container hc hs h
  exact ⟨text, _, h1, h2, declared_iff K container h⟩

/-- **C140 (errors).** Otherwise the first vertex of the complex without two coordinates determines what happens: an exception is raised if it has fewer coordinates, and the program accesses an
element that does not exist if it has none at all. -/
theorem _root_.Aleph.C140_error (o : Options) (coordinate : β → List Char) (number : ℚ → List Char) (K : Complex α) (container : List (List β)) (a b : List ℕ) (u : ℕ)
    (hv : vertices K = a ++ u :: b) (ha : ∀ v ∈ a, ∃ p, container[v]? = some p ∧ 2 ≤ p.length) :
    (∀ p, container[u]? = some p → p.length < 2 → write o coordinate number K container = .error .exception) ∧
    (container.length ≤ u → write o coordinate number K container = .error .undefined) := by
  have key : ∀ e, (∀ s : Simplex α, s.vertices = [u] → pointOf o coordinate number container s = .error e) → write o coordinate number K container = .error e := by
    intro e he
    have : K.mapM (pointOf o coordinate number container) = .error e := by
      clear * - hv ha he
      induction K generalizing a with
      | nil => simp [vertices] at hv
      | cons s K ih =>
        rw [vertices_cons] at hv
        rw [List.mapM_cons]
        match hs : s.vertices with
        | [] =>
          rw [hs] at hv
          have : pointOf o coordinate number container s = .ok [] := by unfold pointOf; rw [hs]
          rw [this, ih a hv ha]
          rfl
        | [v] =>
          rw [hs] at hv
          rcases a with _ | ⟨w, a⟩
          · have : v = u := by simpa using (List.cons.inj hv).1
            rw [he s (by rw [hs, this])]
            rfl
          · have e1 : v = w := (List.cons.inj hv).1
            have e2 : vertices K = a ++ u :: b := (List.cons.inj hv).2
            obtain ⟨p, hp, hl⟩ := ha w List.mem_cons_self
            match p, hl with
            | x :: y :: q, _ =>
              have : pointOf o coordinate number container s = .ok (point o coordinate number w x y) := by
                unfold pointOf
                rw [hs, e1]
                simp only [hp]
              rw [this, ih a e2 fun v hv => ha v (List.mem_cons_of_mem _ hv)]
              rfl
        | v :: w :: l =>
          rw [hs] at hv
          have : pointOf o coordinate number container s = .ok [] := by unfold pointOf; rw [hs]
          rw [this, ih a hv ha]
          rfl
    unfold write
    rw [this]
  refine ⟨fun p hp hl => key _ fun s hs => ?_, fun hu => key _ fun s hs => ?_⟩
  · unfold pointOf
    rw [hs]
    match p, hl with
    | [], _ => simp only [hp]
    | [x], _ => simp only [hp]
  · unfold pointOf
    rw [hs]
    have : container[u]? = none := List.getElem?_eq_none hu
    simp only [this]

/-- **C140 (options).** By default, no labels, balls and triangles are shown, and everything is black; every function changes one option. -/
theorem _root_.Aleph.C140_options (o : Options) (number : ℚ → List Char) (b : Bool) (x : ℚ) (c : List Char) :
    style {} number = ⟨false, "black".toList, number 1, "black".toList, number (1 / 10), number 0, "black".toList, number (1 / 5), "black".toList, number (1 / 2)⟩ ∧
    ({} : Options).showBalls = false ∧ ({} : Options).showTriangles = false ∧
    style (setShowVertexLabels o b) number = { style o number with labels := b } ∧
    style (setPointSize o x) number = { style o number with dotSize := number x } ∧
    style (setPointColour o c) number = { style o number with dotColour := c } ∧
    style (setLineColour o c) number = { style o number with lineColour := c } ∧
    style (setBallRadius o x) number = { style o number with ballRadius := number x } ∧
    style (setTriangleColour o c) number = { style o number with triangleColour := c } ∧
    style (setTriangleOpacity o x) number = { style o number with triangleOpacity := number x } ∧
    ((setShowBalls o b).showBalls = b ∧ (setShowBalls o b).showTriangles = o.showTriangles ∧ style (setShowBalls o b) number = style o number) ∧
    ((setShowTriangles o b).showTriangles = b ∧ (setShowTriangles o b).showBalls = o.showBalls ∧ style (setShowTriangles o b) number = style o number) :=
  ⟨rfl, rfl, rfl, rfl, rfl, rfl, rfl, rfl, rfl, rfl, ⟨rfl, rfl, rfl⟩, ⟨rfl, rfl, rfl⟩⟩

/-! ## Examples -/

/-- A triangle with its faces. -/
def exampleComplex : Complex ℕ := [⟨[0], 0⟩, ⟨[1], 0⟩, ⟨[2], 0⟩, ⟨[1, 0], 1⟩, ⟨[2, 0], 1⟩, ⟨[2, 1], 1⟩, ⟨[2, 1, 0], 2⟩]

/-- Its coordinates. -/
def exampleContainer : List (List ℕ) := [[0, 0], [1, 0], [0, 1, 7]]

/-- Options with labels, balls and triangles. -/
def exampleOptions : Options := setShowTriangles (setShowBalls (setShowVertexLabels (setBallRadius {} 1) true) true) true

theorem example_reachable : Reachable exampleOptions := .triangles _ _ (.balls _ _ (.labels _ _ (.ballRadius _ _ .default)))

theorem example_vertices : ∀ u ∈ vertices exampleComplex, ∃ p, exampleContainer[u]? = some p ∧ 2 ≤ p.length := by
  intro u hu
  have : u = 0 ∨ u = 1 ∨ u = 2 := by simpa [exampleComplex, vertices] using hu
  rcases this with rfl | rfl | rfl
  · exact ⟨[0, 0], rfl, by decide⟩
  · exact ⟨[1, 0], rfl, by decide⟩
  · exact ⟨[0, 1, 7], rfl, by decide⟩

theorem example_plain : Plain (style exampleOptions fun _ => ['1']) := by
  refine ⟨?_, ?_, ?_, ?_, ?_, ?_, ?_, ?_, ?_⟩ <;> decide

example : ∃ text cs, write exampleOptions Utilities.decimal (fun _ => ['1']) exampleComplex exampleContainer = .ok text ∧
    Picture Utilities.decimal (style exampleOptions fun _ => ['1']) cs text ∧ Declared cs := by
  obtain ⟨text, cs, h1, h2, h3⟩ := C140_declared example_reachable Utilities.decimal (fun _ => ['1']) exampleComplex exampleContainer decimal_newline example_plain example_vertices
  refine ⟨text, cs, h1, h2, h3.2 ?_⟩
  decide

example : commands true true exampleContainer exampleComplex =
    [.declare 0 0 0, .dot 0, .ball 0, .declare 1 1 0, .dot 1, .ball 1, .declare 2 0 1, .dot 2, .ball 2, .fill 2 1 0, .line 1 0, .line 2 0, .line 2 1] := rfl

example : write exampleOptions Utilities.decimal (fun _ => ['1']) exampleComplex [[0, 0], [1]] = .error .exception :=
  (C140_error exampleOptions Utilities.decimal (fun _ => ['1']) exampleComplex [[0, 0], [1]] [0] [2] 1 rfl (by
    intro v hv
    have : v = 0 := by simpa using hv
    subst this
    exact ⟨[0, 0], rfl, by decide⟩)).1 [1] rfl (by decide)

example : write exampleOptions Utilities.decimal (fun _ => ['1']) exampleComplex [[0, 0]] = .error .undefined :=
  (C140_error exampleOptions Utilities.decimal (fun _ => ['1']) exampleComplex [[0, 0]] [0] [2] 1 rfl (by
    intro v hv
    have : v = 0 := by simpa using hv
    subst this
    exact ⟨[0, 0], rfl, by decide⟩)).2 (by decide)

end Aleph.Tikz
