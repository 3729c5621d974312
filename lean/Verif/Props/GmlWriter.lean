import Verif.Props.GmlReader
import Verif.Model.GmlWriter
import Verif.Spec.GmlWriter
import Verif.Props.Utilities

/-!
# C135: output of graphs in GML format
-/

namespace Aleph.GmlWriter

open Spec.Gml Spec.Triangulation Spec.Pajek Spec.GmlOutput
open GmlReader (content_of opens_of key_id)

variable {α : Type}

theorem decimal_numeral (n : ℕ) : Numeral (Utilities.decimal n) n ∧ ((Utilities.decimal n).head? = some '0' → Utilities.decimal n = ['0']) := by
  obtain ⟨h1, h2, h3, h4⟩ := Utilities.decimal_spec n
  exact ⟨⟨h1, h2, h3⟩, h4⟩

theorem decimal_value (n : ℕ) : Value (Utilities.decimal n) := ⟨(decimal_numeral n).1.1, fun c hc => Or.inr (Or.inl ((decimal_numeral n).1.2.1 c hc))⟩

theorem value_not_blank {t : List Char} (h : Value t) : ∀ c ∈ t, ¬ Blank c := by
  intro c hc hb
  have := h.2 c hc
  simp only [Blank, List.mem_cons, List.not_mem_nil, or_false] at hb
  rcases hb with rfl | rfl | rfl | rfl | rfl | rfl <;> simp [Letter, Digit] at this

theorem content_line {a t : List Char} (k : List Char) (ha : ∀ c ∈ a, Blank c) (hk : ∀ c, k.head? = some c → ¬ Blank c) (hk0 : k ≠ []) (ht0 : t ≠ []) (ht : ∀ c, t.getLast? = some c → ¬ Blank c) :
    Content (a ++ (k ++ [' '] ++ t)) (k ++ [' '] ++ t) := by
  refine ⟨a, [], by simp, ha, by simp, ?_, ?_⟩
  · intro c hc
    rw [List.append_assoc, List.head?_append_of_ne_nil _ hk0] at hc
    exact hk c hc
  · intro c hc
    rw [List.getLast?_append_of_ne_nil _ ht0] at hc
    exact ht c hc

theorem getLast_mem {t : List Char} {c : Char} (h : t.getLast? = some c) : c ∈ t := List.mem_of_getLast? h

/-- A line with an attribute. -/
theorem assign_value (k : List Char) (hk : Key k ∧ k ≠ "comment".toList ∧ k ≠ "Creator".toList ∧ k ≠ "label".toList) {t : List Char} (ht : Value t) :
    Assigns ("    ".toList ++ (k ++ [' '] ++ t)) k t := by
  refine Or.inr (Or.inr (Or.inl ⟨[' '], hk.1, hk.2.1, hk.2.2.1, hk.2.2.2, ⟨by simp, by simp [Blank]⟩, ht, ?_⟩))
  refine content_line k (by simp [Blank]) ?_ hk.1.1 ht.1 fun c hc => value_not_blank ht c (getLast_mem hc)
  intro c hc hb
  have := hk.1.2 c (PajekReader.head_mem hc)
  simp only [Blank, List.mem_cons, List.not_mem_nil, or_false] at hb
  rcases hb with rfl | rfl | rfl | rfl | rfl | rfl <;> simp [Letter] at this

theorem unsupported_line (k : List Char) (hk : Key k ∧ k ≠ "comment".toList ∧ k ≠ "Creator".toList ∧ k ≠ "label".toList) (hk' : k ∉ ["graph".toList, "node".toList, "edge".toList])
    {t : List Char} (ht : ¬ Value t) (htok : Token t) : UnsupportedLine ("    ".toList ++ (k ++ [' '] ++ t)) k := by
  refine ⟨[' '], t, hk.1, hk.2.1, hk.2.2.1, hk.2.2.2, hk', ⟨by simp, by simp [Blank]⟩, ht, htok.2.2, ⟨fun h => htok.2.1 _ h (by simp [Blank]), fun h => htok.2.1 _ h (by simp [Blank])⟩,
    fun c hc => htok.2.1 c (PajekReader.head_mem hc), htok.1, ?_⟩
  refine content_line k (by simp [Blank]) ?_ hk.1.1 htok.1 fun c hc => htok.2.1 c (getLast_mem hc)
  intro c hc hb
  have := hk.1.2 c (PajekReader.head_mem hc)
  simp only [Blank, List.mem_cons, List.not_mem_nil, or_false] at hb
  rcases hb with rfl | rfl | rfl | rfl | rfl | rfl <;> simp [Letter] at this

/-- A line with a label. -/
theorem assign_label {l : List Char} (h1 : '"' ∉ l) (h2 : Inline l) : Assigns ("    ".toList ++ ("label".toList ++ [' '] ++ ('"' :: l ++ ['"']))) "label".toList l := by
  have hc : Content ("    ".toList ++ ("label".toList ++ [' '] ++ ('"' :: l ++ ['"']))) ("label".toList ++ [' '] ++ ('"' :: l ++ ['"'])) := by
    refine content_line _ (by simp [Blank]) (by simp [Blank]) (by simp) (by simp) ?_
    intro c hc
    rw [List.getLast?_append_of_ne_nil _ (by simp)] at hc
    obtain rfl : '"' = c := by simpa using hc
    simp [Blank]
  by_cases hl : l = []
  · subst hl
    refine Or.inr (Or.inl ⟨rfl, ⟨[' '], ['"', '"'], ⟨by simp, by simp [Blank]⟩, by simp [Inline], by simp, ?_, ?_, hc⟩, rfl⟩)
    · intro c hc
      obtain rfl : '"' = c := by simpa using hc
      simp [Blank]
    · intro v hv _ h
      have hlen := congrArg List.length h
      have hpos : 0 < v.length := List.length_pos_iff.2 hv
      simp only [List.length_append, List.length_cons, List.length_nil] at hlen
      omega
  · refine Or.inl ⟨rfl, [' '], ⟨by simp, by simp [Blank]⟩, hl, h1, h2, ?_⟩
    simpa using hc

theorem key_of (k : String) (hk : k ∈ ["id", "directed", "data", "weight", "source", "target"]) :
    Key k.toList ∧ k.toList ≠ "comment".toList ∧ k.toList ≠ "Creator".toList ∧ k.toList ≠ "label".toList := by
  simp only [List.mem_cons, List.not_mem_nil, or_false] at hk
  rcases hk with rfl | rfl | rfl | rfl | rfl | rfl <;> exact ⟨⟨by simp, by simp [Letter]⟩, by decide, by decide, by decide⟩

/-- Text consists of complete lines. -/
def Flat (text : List Char) (ls : List (List Char)) : Prop := text = (ls.flatMap fun l => l ++ ['\n']) ∧ ∀ l ∈ ls, '\n' ∉ l

theorem Flat.append {s t : List Char} {ls ms : List (List Char)} (h : Flat s ls) (h' : Flat t ms) : Flat (s ++ t) (ls ++ ms) := by
  refine ⟨by rw [List.flatMap_append, h.1, h'.1], fun l hl => ?_⟩
  rcases List.mem_append.1 hl with hl | hl
  · exact h.2 l hl
  · exact h'.2 l hl

theorem Flat.line {l : List Char} (h : '\n' ∉ l) : Flat (l ++ ['\n']) [l] := ⟨by simp, by simpa using h⟩

theorem Flat.nil : Flat [] [] := ⟨rfl, by simp⟩

theorem value_line {t : List Char} (h : Token t) : '\n' ∉ t := fun hn => h.2.1 _ hn (by simp [Blank])

theorem decimal_token (n : ℕ) : Token (Utilities.decimal n) := by
  refine ⟨(decimal_value n).1, value_not_blank (decimal_value n), fun h => ?_⟩
  have := (decimal_value n).2 '[' (by rw [h]; simp)
  simp [Letter, Digit] at this

theorem node_spec (o : Options) (represent : α → List Char) (s : Simplex α) {u : ℕ} (hs : s.vertices = [u]) (hl : ∀ l ∈ o.nodeLabels, '"' ∉ l ∧ Inline l) (ht : Token (represent s.data))
    {text : List Char} (h : node o represent u s.data = some text) : ∃ ls as, Flat text ls ∧ Block "node" ls as ∧ VertexEntry o.nodeLabels o.simplexData represent s as := by
  rw [node, Option.map_eq_some_iff] at h
  obtain ⟨label, hlab, rfl⟩ := h
  have h1 : Flat ("  node [\n    id ".toList ++ Utilities.decimal u ++ "\n".toList) ["  node [".toList, "    ".toList ++ ("id".toList ++ [' '] ++ Utilities.decimal u)] := by
    refine ⟨by simp, ?_⟩
    have := value_line (decimal_token u)
    simp [this]
  have h2 : ∃ ls as, Flat label ls ∧ Attributes ls as ∧ ((o.nodeLabels = [] ∧ as = []) ∨ (∃ l, 1 ≤ u ∧ o.nodeLabels[u - 1]? = some l ∧ as = [("label".toList, l)])) := by
    rw [labelLine] at hlab
    split_ifs at hlab with h0 h1
    · obtain rfl := Option.some.inj hlab
      exact ⟨[], [], .nil, .nil, Or.inl ⟨List.isEmpty_iff.1 h0, rfl⟩⟩
    · obtain ⟨l, hget, rfl⟩ := Option.map_eq_some_iff.1 hlab
      obtain ⟨q1, q2⟩ := hl l (List.mem_of_getElem? hget)
      refine ⟨["    ".toList ++ ("label".toList ++ [' '] ++ ('"' :: l ++ ['"']))], _, ⟨by simp, ?_⟩, .cons _ _ _ _ _ (assign_label q1 q2) .nil, Or.inr ⟨l, by omega, hget, rfl⟩⟩
      have := q2.1
      simp [this]
  have h3 : ∃ ls as, Flat (if o.simplexData then "    data ".toList ++ represent s.data ++ "\n".toList else []) ls ∧ Attributes ls as ∧
      ((o.simplexData = true ∧ Value (represent s.data) ∧ as = [("data".toList, represent s.data)]) ∨ (¬ (o.simplexData = true ∧ Value (represent s.data)) ∧ as = [])) := by
    split_ifs with h0
    · have hf : Flat ("    data ".toList ++ represent s.data ++ "\n".toList) ["    ".toList ++ ("data".toList ++ [' '] ++ represent s.data)] := by
        refine ⟨by simp, ?_⟩
        have := value_line ht
        simp [this]
      by_cases hv : Value (represent s.data)
      · exact ⟨_, _, hf, .cons _ _ _ _ _ (assign_value _ (key_of "data" (by simp)) hv) .nil, Or.inl ⟨h0, hv, rfl⟩⟩
      · refine ⟨_, _, hf, .skip _ _ _ (Or.inr (Or.inr ⟨_, unsupported_line _ (key_of "data" (by simp)) (by decide) hv ht, by simp [Known]⟩)) .nil, Or.inr ⟨fun h => hv h.2, rfl⟩⟩
    · exact ⟨[], [], .nil, .nil, Or.inr ⟨fun h => h0 h.1, rfl⟩⟩
  obtain ⟨ls, as, f2, a2, e2⟩ := h2
  obtain ⟨ms, bs, f3, a3, e3⟩ := h3
  have h4 : Flat "  ]\n".toList ["  ]".toList] := ⟨by decide, by decide⟩
  have hatt : ∀ {l m : List (List Char)} {x y : List (List Char × List Char)}, Attributes l x → Attributes m y → Attributes (l ++ m) (x ++ y) := by
    intro l m x y h h'
    induction h with
    | nil => exact h'
    | skip l ls as hs _ ih => exact .skip _ _ _ hs ih
    | cons l k v ls as hs _ ih => exact .cons _ _ _ _ _ hs ih
  refine ⟨_, ("id".toList, Utilities.decimal u) :: as ++ bs, ((h1.append f2).append f3).append h4, ?_, ?_⟩
  · refine ⟨["  node [".toList], ("    ".toList ++ ("id".toList ++ [' '] ++ Utilities.decimal u)) :: ls ++ ms, "  ]".toList, by simp, opens_of (by decide), ?_, content_of (by decide)⟩
    exact .cons _ _ _ _ _ (assign_value _ key_id (decimal_value u)) (hatt a2 a3)
  · exact ⟨u, _, as, bs, hs, (decimal_numeral u).1, (decimal_numeral u).2, rfl, e2, e3⟩

theorem edge_text (p q r z a w b c d e A B C : List Char) (hp : p = a ++ (['\n'] ++ (w ++ b))) (hq : q = ['\n'] ++ (w ++ c)) (hr : r = ['\n'] ++ (w ++ d)) (hz : z = ['\n'] ++ (e ++ ['\n'])) :
    p ++ A ++ q ++ B ++ r ++ C ++ z = [a, w ++ (b ++ A), w ++ (c ++ B), w ++ (d ++ C), e].flatMap fun l => l ++ ['\n'] := by
  subst hp hq hr hz
  simp

theorem edge_spec (represent : α → List Char) (s : Simplex α) {u v : ℕ} (hs : s.vertices = [u, v]) (ht : Token (represent s.data)) :
    ∃ ls as, Flat (edge represent u v s.data) ls ∧ Block "edge" ls as ∧ EdgeEntry represent s as := by
  have hf : Flat (edge represent u v s.data) ["  edge [".toList, "    ".toList ++ ("source".toList ++ [' '] ++ Utilities.decimal u), "    ".toList ++ ("target".toList ++ [' '] ++ Utilities.decimal v),
      "    ".toList ++ ("weight".toList ++ [' '] ++ represent s.data), "  ]".toList] := by
    refine ⟨?_, ?_⟩
    · exact edge_text _ _ _ _ "  edge [".toList "    ".toList ("source".toList ++ [' ']) ("target".toList ++ [' ']) ("weight".toList ++ [' ']) "  ]".toList _ _ _ rfl rfl rfl rfl
    have h1 := value_line (decimal_token u)
    have h2 := value_line (decimal_token v)
    have h3 := value_line ht
    simp [h1, h2, h3]
  obtain ⟨w, hw, hk⟩ : ∃ w, Assigns ("    ".toList ++ ("weight".toList ++ [' '] ++ represent s.data)) "weight".toList w ∧ Kept (represent s.data) w := by
    by_cases hv : Value (represent s.data)
    · exact ⟨_, assign_value _ (key_of "weight" (by simp)) hv, Or.inl ⟨hv, rfl⟩⟩
    · exact ⟨[], Or.inr (Or.inr (Or.inr ⟨unsupported_line _ (key_of "weight" (by simp)) (by decide) hv ht, by simp [Known], rfl⟩)), Or.inr ⟨hv, rfl⟩⟩
  refine ⟨_, [("source".toList, Utilities.decimal u), ("target".toList, Utilities.decimal v), ("weight".toList, w)], hf, ?_,
    u, v, _, _, w, hs, (decimal_numeral u).1, (decimal_numeral u).2, (decimal_numeral v).1, (decimal_numeral v).2, hk, rfl⟩
  refine ⟨["  edge [".toList], ["    ".toList ++ ("source".toList ++ [' '] ++ Utilities.decimal u), "    ".toList ++ ("target".toList ++ [' '] ++ Utilities.decimal v),
      "    ".toList ++ ("weight".toList ++ [' '] ++ represent s.data)], "  ]".toList, rfl, opens_of (by decide), ?_, content_of (by decide)⟩
  exact .cons _ _ _ _ _ (assign_value _ (key_of "source" (by simp)) (decimal_value u)) (.cons _ _ _ _ _ (assign_value _ (key_of "target" (by simp)) (decimal_value v)) (.cons _ _ _ _ _ hw .nil))

/-- The lines of both streams. -/
theorem streams_spec (o : Options) (represent : α → List Char) (hl : ∀ l ∈ o.nodeLabels, '"' ∉ l ∧ Inline l) (K : List (Simplex α)) (ht : ∀ s ∈ K, Token (represent s.data))
    {ps : List (List Char × List Char)} (h : K.mapM (simplex o represent) = some ps) :
    ∃ nls els ns es, Flat (ps.map Prod.fst).flatten nls ∧ Flat (ps.map Prod.snd).flatten els ∧
      (∀ ls ns' es', Body ls ns' es' → Body (nls ++ ls) (ns ++ ns') es') ∧ (∀ ls ns' es', Body ls ns' es' → Body (els ++ ls) ns' (es ++ es')) ∧
      List.Forall₂ (VertexEntry o.nodeLabels o.simplexData represent) (K.filter fun s => s.vertices.length = 1) ns ∧
      List.Forall₂ (EdgeEntry represent) (K.filter fun s => s.vertices.length = 2) es := by
  induction K generalizing ps with
  | nil =>
    simp only [List.mapM_nil] at h
    obtain rfl : ([] : List (List Char × List Char)) = ps := Option.some.inj h
    exact ⟨[], [], [], [], .nil, .nil, fun _ _ _ h => h, fun _ _ _ h => h, .nil, .nil⟩
  | cons s K ih =>
    rw [List.mapM_cons] at h
    obtain ⟨p, hp, h⟩ := Option.bind_eq_some_iff.1 h
    obtain ⟨ps', hps, h⟩ := Option.bind_eq_some_iff.1 h
    obtain rfl : p :: ps' = ps := Option.some.inj h
    obtain ⟨nls, els, ns, es, f1, f2, b1, b2, e1, e2⟩ := ih (fun t h => ht t (List.mem_cons_of_mem _ h)) hps
    rw [simplex] at hp
    split at hp
    · cases hp
    · rename_i u hu
      obtain ⟨t, htx, rfl⟩ := Option.map_eq_some_iff.1 hp
      obtain ⟨ls, as, g1, g2, g3⟩ := node_spec o represent s hu hl (ht s List.mem_cons_self) htx
      refine ⟨ls ++ nls, els, as :: ns, es, g1.append f1, f2, ?_, b2, ?_, ?_⟩
      · intro l n e hb
        rw [List.append_assoc]
        exact .node _ _ _ _ _ g2 (b1 l n e hb)
      · rw [List.filter_cons_of_pos (by simp [hu])]
        exact .cons g3 e1
      · rw [List.filter_cons_of_neg (by simp [hu])]
        exact e2
    · rename_i u v hu
      obtain rfl := Option.some.inj hp
      obtain ⟨ls, as, g1, g2, g3⟩ := edge_spec represent s hu (ht s List.mem_cons_self)
      refine ⟨nls, ls ++ els, ns, as :: es, f1, g1.append f2, b1, ?_, ?_, ?_⟩
      · intro l n e hb
        rw [List.append_assoc]
        exact .edge _ _ _ _ _ g2 (b2 l n e hb)
      · rw [List.filter_cons_of_neg (by simp [hu])]
        exact e1
      · rw [List.filter_cons_of_pos (by simp [hu])]
        exact .cons g3 e2
    · rename_i h0 h1 h2
      obtain rfl := Option.some.inj hp
      refine ⟨nls, els, ns, es, f1, f2, b1, b2, ?_, ?_⟩
      · rw [List.filter_cons_of_neg]
        · exact e1
        · intro h
          obtain ⟨u, hu⟩ := List.length_eq_one_iff.1 (of_decide_eq_true h)
          exact h1 u hu
      · rw [List.filter_cons_of_neg]
        · exact e2
        · intro h
          obtain ⟨u, v, hu⟩ := List.length_eq_two.1 (of_decide_eq_true h)
          exact h2 u v hu

/-- **C135 (text).** The output is a GML file with a node for every vertex and an edge for every edge of the complex, in their order; nodes have the label of the vertex, counted from one, and on request
its data, and edges have their data as weight. -/
theorem _root_.Aleph.C135_write (o : Options) (represent : α → List Char) (hl : ∀ l ∈ o.nodeLabels, '"' ∉ l ∧ Inline l) (K : Complex α) (ht : ∀ s ∈ K, Token (represent s.data))
    {text : List Char} (h : write o represent K = some text) :
    ∃ ls ns es, Spec.Lines text ls false ∧ File ls ns es ∧ List.Forall₂ (VertexEntry o.nodeLabels o.simplexData represent) (K.filter fun s => s.vertices.length = 1) ns ∧
      List.Forall₂ (EdgeEntry represent) (K.filter fun s => s.vertices.length = 2) es := by
  rw [write, Option.map_eq_some_iff] at h
  obtain ⟨ps, hps, rfl⟩ := h
  obtain ⟨nls, els, ns, es, f1, f2, b1, b2, e1, e2⟩ := streams_spec o represent hl K ht hps
  have hh : Flat "graph [\n  directed 0\n".toList ["graph [".toList, "  directed 0".toList] := ⟨by decide, by decide⟩
  have hn : Flat "\n".toList [[]] := ⟨by decide, by decide⟩
  have hc : Flat "\n]\n".toList [[], [']']] := ⟨by decide, by decide⟩
  have hall := (((hh.append f1).append hn).append f2).append hc
  refine ⟨_, ns, es, SparseReader.lines_flat hall.1 hall.2, ?_, e1, e2⟩
  refine ⟨[], ["graph [".toList], "  directed 0".toList :: (nls ++ ([] :: (els ++ [[]]))), [']'], [], by simp, by simp, opens_of (by decide), ?_, content_of (by decide), by simp⟩
  refine .graph _ "directed".toList ['0'] _ _ _ ?_ (by decide) (by decide) (by decide) ?_
  · exact GmlReader.value_of (key_of "directed" (by simp)) (by simp [Value, Digit]) (by decide)
  · have := b1 _ _ _ (.skip [] _ _ _ (Or.inl (content_of (by decide))) (b2 _ _ _ (.skip [] _ _ _ (Or.inl (content_of (by decide))) .nil)))
    simpa using this

theorem mapM_none {γ δ : Type} (f : γ → Option δ) (l : List γ) : l.mapM f = none ↔ ∃ x ∈ l, f x = none := by
  induction l with
  | nil => simp
  | cons x l ih =>
    rw [List.mapM_cons]
    cases hx : f x with
    | none => simp [hx]
    | some y =>
      cases hl : l.mapM f with
      | none => simpa [hx, hl] using ih.1 hl
      | some ys =>
        have : ¬ ∃ x ∈ l, f x = none := fun h => by rw [ih.2 h] at hl; cases hl
        simpa [hx, hl] using this

/-- **C135 (exceptions).** Output raises an exception if and only if a simplex is empty, or there are labels but none for some vertex; labels are counted from one, so that there is none for the
vertex zero. -/
theorem _root_.Aleph.C135_exception (o : Options) (represent : α → List Char) (K : Complex α) :
    write o represent K = none ↔ (∃ s ∈ K, s.vertices = []) ∨ (o.nodeLabels ≠ [] ∧ ∃ s ∈ K, ∃ u, s.vertices = [u] ∧ (u = 0 ∨ o.nodeLabels.length < u)) := by
  have hs : ∀ s : Simplex α, simplex o represent s = none ↔ s.vertices = [] ∨ (o.nodeLabels ≠ [] ∧ ∃ u, s.vertices = [u] ∧ (u = 0 ∨ o.nodeLabels.length < u)) := by
    intro s
    rw [simplex]
    split
    · rename_i h; simp [h]
    · rename_i u h
      rw [Option.map_eq_none_iff, node, Option.map_eq_none_iff, labelLine]
      split_ifs with h0 h1
      · rw [List.isEmpty_iff] at h0
        simp [h, h0]
      · rw [List.isEmpty_iff] at h0
        have : u = 0 := by omega
        simp [h, h0, this]
      · rw [List.isEmpty_iff] at h0
        rw [Option.map_eq_none_iff, List.getElem?_eq_none_iff]
        constructor
        · intro hu
          exact Or.inr ⟨h0, u, h, Or.inr (by omega)⟩
        · rintro (hu | ⟨_, v, hv, hu⟩)
          · rw [h] at hu; cases hu
          · rw [h] at hv
            obtain rfl : u = v := by simpa using hv
            omega
    · rename_i u v h; simp [h]
    · rename_i h0 h1 h2
      simp only [reduceCtorEq, false_iff]
      rintro (h | ⟨_, u, hu, _⟩)
      · exact h0 h
      · exact h1 u hu
  rw [write, Option.map_eq_none_iff, mapM_none]
  constructor
  · rintro ⟨s, hm, h⟩
    rcases (hs s).1 h with h | ⟨h, h'⟩
    · exact Or.inl ⟨s, hm, h⟩
    · exact Or.inr ⟨h, s, hm, h'⟩
  · rintro (⟨s, hm, h⟩ | ⟨h, s, hm, h'⟩)
    · exact ⟨s, hm, (hs s).2 (Or.inl h)⟩
    · exact ⟨s, hm, (hs s).2 (Or.inr ⟨h, h'⟩)⟩

/-- Different simplices are collected without changes. -/
theorem collects_exact {K : Complex α} {entries : List (List ℕ × α)} (h : Spec.Collects K entries) (hn : ∀ e ∈ entries, Normal e.1) (hd : (entries.map Prod.fst).Nodup) :
    K = entries.map fun e => ⟨e.1, e.2⟩ := by
  obtain ⟨hK, h1, h2, _⟩ := h
  have hd' : (entries.map fun e => e.1.toFinset).Nodup := by
    rw [List.nodup_map_iff_inj_on hd.of_map]
    intro x hx y hy hxy
    have : x.1 = y.1 := by rw [← vlist_of_normal (hn x hx), ← vlist_of_normal (hn y hy), hxy]
    exact List.inj_on_of_nodup_map hd hx hy this
  have hlen : entries.length ≤ K.length := by
    have : (entries.map fun e => e.1.toFinset).length ≤ (K.map Simplex.vset).length := by
      refine (List.Nodup.subperm hd' ?_).length_le
      intro x hx
      obtain ⟨e, he, rfl⟩ := List.mem_map.1 hx
      exact h1 e he
    simpa using this
  have heq := h2.eq_of_length_le (by simpa using hlen)
  have := congrArg (List.map fun p : Finset ℕ × α => (⟨vlist p.1, p.2⟩ : Simplex α)) heq
  rw [List.map_map, List.map_map] at this
  have e1 : K.map ((fun p : Finset ℕ × α => (⟨vlist p.1, p.2⟩ : Simplex α)) ∘ fun s => (s.vset, s.data)) = K := by
    conv_rhs => rw [← List.map_id K]
    refine List.map_congr_left fun s hs => ?_
    have := vlist_of_normal (hK.normal s hs)
    simp only [Function.comp, Simplex.vset, this, id]
  rw [e1] at this
  rw [this]
  refine List.map_congr_left fun e he => ?_
  simp only [Function.comp, vlist_of_normal (hn e he)]

theorem numeral_unique {d : List Char} {v w : ℕ} (h : Numeral d v) (h' : Numeral d w) : v = w := h.2.2.symm.trans h'.2.2

theorem lastValue_ne {as : List (List Char × List Char)} {k v k' w : List Char} (h : LastValue as k v) (hne : k' ≠ k) : LastValue (as ++ [(k', w)]) k v := by
  obtain ⟨a, b, rfl, hb⟩ := h
  refine ⟨a, b ++ [(k', w)], by simp, fun x hx => ?_⟩
  rcases List.mem_append.1 hx with hx | hx
  · exact hb x hx
  · obtain rfl := List.mem_singleton.1 hx; exact hne

theorem vertexEntry_id {labels : List (List Char)} {data : Bool} {represent : α → List Char} {s : Simplex α} {as : List (List Char × List Char)}
    (h : VertexEntry labels data represent s as) : ∃ u t, s.vertices = [u] ∧ Numeral t u ∧ ValueOr as "id".toList t ∧ Unweighted as := by
  obtain ⟨u, t, ls, ds, h1, h2, _, rfl, h4, h5⟩ := h
  have hk : ∀ x ∈ ls ++ ds, x.1 = "label".toList ∨ x.1 = "data".toList := by
    intro x hx
    rcases List.mem_append.1 hx with hx | hx
    · rcases h4 with ⟨_, rfl⟩ | ⟨l, _, _, rfl⟩
      · simp at hx
      · obtain rfl := List.mem_singleton.1 hx; exact Or.inl rfl
    · rcases h5 with ⟨_, _, rfl⟩ | ⟨_, rfl⟩
      · obtain rfl := List.mem_singleton.1 hx; exact Or.inr rfl
      · simp at hx
  refine ⟨u, t, h1, h2, Or.inl ⟨[], ls ++ ds, by simp, fun x hx => ?_⟩, fun x hx => ?_⟩
  · rcases hk x hx with h | h <;> rw [h] <;> decide
  · rw [List.cons_append, List.mem_cons] at hx
    rcases hx with rfl | hx
    · exact ⟨by show "id".toList ≠ _; decide, by show "id".toList ≠ _; decide⟩
    · rcases hk x hx with h | h <;> rw [h] <;> exact ⟨by decide, by decide⟩

section

open GmlReader (Parsed read)

variable [Zero α] {number : List Char → Parsed} {convert : List Char → α} {f : α → α → α}

theorem nodes_read (hnum : ∀ d v, Numeral d v → number d = .value v) {labels : List (List Char)} {data : Bool} {represent : α → List Char} {V : List (Simplex α)}
    {ns : List (List (List Char × List Char))} (h : List.Forall₂ (VertexEntry labels data represent) V ns) :
    ∃ ns' : List (NodeInfo α), (∀ ids, List.Forall₂ (IsNode number convert ids) ns ns') ∧ V.map (·.vertices) = ns'.map (fun n => [n.vertex]) ∧ ∀ n ∈ ns', n.data = 0 ∧ Numeral n.id n.vertex := by
  induction h with
  | nil => exact ⟨[], fun _ => .nil, rfl, by simp⟩
  | @cons s as V ns h _ ih =>
    obtain ⟨ns', h1, h2, h3⟩ := ih
    obtain ⟨u, t, hu, ht, hid, hw⟩ := vertexEntry_id h
    refine ⟨⟨t, u, 0⟩ :: ns', fun ids => .cons ⟨hid, Or.inl (hnum _ _ ht), Or.inr ⟨hw, rfl⟩⟩ (h1 ids), by simp [hu, h2], ?_⟩
    intro n hn
    rcases List.mem_cons.1 hn with rfl | hn
    · exact ⟨rfl, ht⟩
    · exact h3 n hn

theorem edges_read (hnum : ∀ d v, Numeral d v → number d = .value v) {represent : α → List Char} {E : List (Simplex α)} {g : Simplex α → α}
    (hg : ∀ s ∈ E, ∀ w, Kept (represent s.data) w → g s = convert w)
    {es : List (List (List Char × List Char))} (h : List.Forall₂ (EdgeEntry represent) E es) :
    ∃ es' : List (EdgeInfo α), (∀ ids ns', List.Forall₂ (IsEdge number convert f ids ns') es es') ∧ E.map (fun s => (s.vertices, g s)) = es'.map fun e => ([e.source, e.target], e.data) := by
  induction h with
  | nil => exact ⟨[], fun _ _ => .nil, rfl⟩
  | @cons s as E es h _ ih =>
    obtain ⟨es', h1, h2⟩ := ih fun s hs => hg s (List.mem_cons_of_mem _ hs)
    obtain ⟨u, v, a, b, w, hs, ha, _, hb, _, hw, rfl⟩ := h
    refine ⟨⟨u, v, g s⟩ :: es', fun ids ns' => .cons ⟨a, b, Or.inl ⟨[], _, rfl, ?_⟩, Or.inl ⟨[("source".toList, a)], _, rfl, ?_⟩, Or.inl (hnum _ _ ha), Or.inl (hnum _ _ hb), Or.inl (Or.inl ⟨w, ⟨[("source".toList, a), ("target".toList, b)], [], rfl, by simp⟩, hg s List.mem_cons_self w hw⟩)⟩ (h1 ids ns'), by simp [hs, h2]⟩
    · intro x hx
      simp only [List.mem_cons, List.not_mem_nil, or_false] at hx
      rcases hx with rfl | rfl
      · show "target".toList ≠ _; decide
      · show "weight".toList ≠ _; decide
    · intro x hx
      simp only [List.mem_cons, List.not_mem_nil, or_false] at hx
      obtain rfl := hx
      show "weight".toList ≠ _; decide

theorem read_back (hnum : ∀ d v, Numeral d v → number d = .value v) (o : Options) (represent : α → List Char) (hl : ∀ l ∈ o.nodeLabels, '"' ∉ l ∧ Inline l) {K : Complex α}
    (hK : Spec.WF K) (ht : ∀ s ∈ K, Token (represent s.data)) {g : Simplex α → α} (hg : ∀ s ∈ K, ∀ w, Kept (represent s.data) w → g s = convert w) {text : List Char}
    (h : write o represent K = some text) :
    ∃ st, read number convert f text = .ok (st, ((K.filter fun s => s.vertices.length = 1).map fun s => ⟨s.vertices, 0⟩) ++ (K.filter fun s => s.vertices.length = 2).map fun s => ⟨s.vertices, g s⟩) := by
  obtain ⟨ls, ns, es, hL, hF, hn, he⟩ := Aleph.C135_write o represent hl K ht h
  obtain ⟨ns', n1, n2, n3⟩ := nodes_read (convert := convert) hnum hn
  obtain ⟨es', e1, e2⟩ := edges_read (f := f) hnum (fun s hs => hg s (List.mem_filter.1 hs).1) he
  have hd : ∀ p : Simplex α → Bool, ((K.filter p).map (·.vertices)).Nodup := fun p => hK.distinct.sublist (List.filter_sublist.map _)
  have hvd : (ns'.map fun n => [n.vertex]).Nodup := n2 ▸ hd _
  have hid : (ns'.map (·.id)).Nodup := by
    rw [List.nodup_map_iff_inj_on hvd.of_map]
    intro x hx y hy hxy
    refine List.inj_on_of_nodup_map hvd hx hy ?_
    have := numeral_unique (n3 x hx).2 (hxy ▸ (n3 y hy).2)
    simp only [this]
  obtain ⟨st, K', hr, hc, _⟩ := Aleph.C134_read_partial number convert f hL hF ns' es' (n1 _) (e1 _ _) hid fun m hm n hn _ => by rw [(n3 m hm).1, (n3 n hn).1]
  have hns : ns'.map (fun n => ([n.vertex], n.data)) = (K.filter fun s => s.vertices.length = 1).map fun s => (s.vertices, 0) := by
    have := congrArg (List.map fun l : List ℕ => (l, (0 : α))) n2
    rw [List.map_map, List.map_map] at this
    rw [show ((fun l : List ℕ => (l, (0 : α))) ∘ fun s : Simplex α => s.vertices) = fun s => (s.vertices, 0) from rfl] at this
    rw [this]
    exact List.map_congr_left fun n hn => by simp [(n3 n hn).1]
  rw [hns, ← e2] at hc
  refine ⟨st, ?_⟩
  rw [hr]
  rw [collects_exact hc]
  · simp [List.map_map, Function.comp_def]
  · intro e he
    rcases List.mem_append.1 he with he | he
    · obtain ⟨s, hs, rfl⟩ := List.mem_map.1 he
      exact hK.normal s (List.mem_filter.1 hs).1
    · obtain ⟨s, hs, rfl⟩ := List.mem_map.1 he
      exact hK.normal s (List.mem_filter.1 hs).1
  · rw [List.map_append, List.map_map, List.map_map]
    refine List.nodup_append.2 ⟨hd _, hd _, ?_⟩
    intro a ha b hb hab
    obtain ⟨s, hs, rfl⟩ := List.mem_map.1 ha
    obtain ⟨t, ht, rfl⟩ := List.mem_map.1 hb
    have h1 := (List.mem_filter.1 hs).2
    have h2 := (List.mem_filter.1 ht).2
    simp only [Function.comp, decide_eq_true_eq] at h1 h2 hab
    rw [hab] at h1
    omega

/-- **C135 (round trip).** A graph that has been written is read again: all vertices, in their order, followed by all edges with their data, provided that the data of edges is represented by letters,
digits and dots.  The code violates the property for vertices: their data is not read again, even if it has been written; see also `C135_lost` for other representations. -/
theorem _root_.Aleph.C135_read_partial (hnum : ∀ d v, Numeral d v → number d = .value v) (o : Options) (represent : α → List Char) (hl : ∀ l ∈ o.nodeLabels, '"' ∉ l ∧ Inline l) {K : Complex α}
    (hK : Spec.WF K) (ht : ∀ s ∈ K, Token (represent s.data)) (hw : ∀ s ∈ K, s.vertices.length = 2 → Value (represent s.data) ∧ convert (represent s.data) = s.data) {text : List Char}
    (h : write o represent K = some text) :
    ∃ st, read number convert f text = .ok (st, ((K.filter fun s => s.vertices.length = 1).map fun s => ⟨s.vertices, 0⟩) ++ K.filter fun s => s.vertices.length = 2) := by
  classical
  have hg : ∀ s ∈ K, ∀ w, Kept (represent s.data) w → (if Value (represent s.data) then convert (represent s.data) else convert []) = convert w := by
    rintro s _ w (⟨h1, rfl⟩ | ⟨h1, rfl⟩)
    · rw [if_pos h1]
    · rw [if_neg h1]
  obtain ⟨st, hst⟩ := read_back (f := f) hnum o represent hl hK ht hg h
  · refine ⟨st, hst.trans ?_⟩
    have : ((K.filter fun s => s.vertices.length = 2).map fun s => (⟨s.vertices, if Value (represent s.data) then convert (represent s.data) else convert []⟩ : Simplex α)) =
        K.filter fun s => s.vertices.length = 2 := by
      conv_rhs => rw [← List.map_id (K.filter _)]
      refine List.map_congr_left fun s hs => ?_
      obtain ⟨h1, h2⟩ := hw s (List.mem_filter.1 hs).1 (by simpa using (List.mem_filter.1 hs).2)
      rw [if_pos h1, h2]
      rfl
    rw [this]

/-- **C135 (lost data).** The code violates the property: data of edges whose representation contains other characters, such as a sign, is read as an empty text. -/
theorem _root_.Aleph.C135_lost (hnum : ∀ d v, Numeral d v → number d = .value v) (o : Options) (represent : α → List Char) (hl : ∀ l ∈ o.nodeLabels, '"' ∉ l ∧ Inline l) {K : Complex α}
    (hK : Spec.WF K) (ht : ∀ s ∈ K, Token (represent s.data)) {text : List Char} (h : write o represent K = some text) {s : Simplex α} (hs : s ∈ K) (h2 : s.vertices.length = 2)
    (hv : ¬ Value (represent s.data)) : ∃ st K', read number convert f text = .ok (st, K') ∧ ∀ d, (⟨s.vertices, d⟩ ∈ K' ↔ d = convert []) := by
  classical
  have hg : ∀ s ∈ K, ∀ w, Kept (represent s.data) w → (if Value (represent s.data) then convert (represent s.data) else convert []) = convert w := by
    rintro s _ w (⟨h1, rfl⟩ | ⟨h1, rfl⟩)
    · rw [if_pos h1]
    · rw [if_neg h1]
  obtain ⟨st, hst⟩ := read_back (f := f) hnum o represent hl hK ht hg h
  · refine ⟨st, _, hst, fun d => ?_⟩
    constructor
    · intro hm
      rcases List.mem_append.1 hm with hm | hm
      · obtain ⟨t, ht, he⟩ := List.mem_map.1 hm
        have h1 := (List.mem_filter.1 ht).2
        simp only [decide_eq_true_eq] at h1
        have := congrArg (fun s : Simplex α => s.vertices.length) he
        simp only at this
        omega
      · obtain ⟨t, ht, he⟩ := List.mem_map.1 hm
        obtain ⟨e1, e2⟩ := Simplex.mk.inj he
        obtain rfl := List.inj_on_of_nodup_map hK.distinct (List.mem_filter.1 ht).1 hs e1
        rw [← e2, if_neg hv]
    · rintro rfl
      refine List.mem_append_right _ (List.mem_map.2 ⟨s, List.mem_filter.2 ⟨hs, by simpa using h2⟩, ?_⟩)
      rw [if_neg hv]

/-- **C135 (labels).** After reading, the labels of all nodes can be queried. -/
theorem _root_.Aleph.C135_labels (o : Options) (represent : α → List Char) (hl : ∀ l ∈ o.nodeLabels, '"' ∉ l ∧ Inline l) {K : Complex α}
    (ht : ∀ s ∈ K, Token (represent s.data)) {text : List Char} (h : write o represent K = some text) {st : GmlReader.Storage} {K' : Complex α} (hr : read number convert f text = .ok (st, K'))
    {s : Simplex α} (hs : s ∈ K) {u : ℕ} (hu : s.vertices = [u]) {l : List Char} (hul : o.nodeLabels[u - 1]? = some l) :
    ∃ t, Numeral t u ∧ (t.head? = some '0' → t = ['0']) ∧ (GmlReader.getNodeAttribute st "label".toList).lookup t = some l := by
  obtain ⟨ls, ns, es, hL, hF, hn, he⟩ := Aleph.C135_write o represent hl K ht h
  obtain ⟨as, has, hent⟩ : ∃ as ∈ ns, VertexEntry o.nodeLabels o.simplexData represent s as := by
    have hm : s ∈ K.filter fun s => s.vertices.length = 1 := List.mem_filter.2 ⟨hs, by simp [hu]⟩
    clear hL hF he hr
    generalize (K.filter fun s => s.vertices.length = 1) = V at hn hm
    induction hn with
    | nil => simp at hm
    | @cons a b V ns hab _ ih =>
      rcases List.mem_cons.1 hm with rfl | hm
      · exact ⟨b, List.mem_cons_self, hab⟩
      · obtain ⟨x, hx, hx'⟩ := ih hm
        exact ⟨x, List.mem_cons_of_mem _ hx, hx'⟩
  obtain ⟨_, _, h3, _⟩ := Aleph.C134_attributes number convert f hL hF hr
  have hat := hent
  obtain ⟨u', t, lp, dp, h1, h2, h2', rfl, h4, h5⟩ := hent
  obtain rfl : u = u' := by rw [hu] at h1; simpa using h1
  obtain ⟨rfl, h4⟩ : lp = [("label".toList, l)] ∧ True := by
    rcases h4 with ⟨h0, _⟩ | ⟨l', _, hl', rfl⟩
    · rw [h0] at hul; simp at hul
    · rw [hul] at hl'
      obtain rfl := Option.some.inj hl'
      exact ⟨rfl, trivial⟩
  have hds : ∀ x ∈ dp, x.1 = "data".toList := by
    intro x hx
    rcases h5 with ⟨_, _, rfl⟩ | ⟨_, rfl⟩
    · obtain rfl := List.mem_singleton.1 hx; rfl
    · simp at hx
  refine ⟨t, h2, h2', h3 _ has t _ l ?_ (by decide) (by decide) (by decide) ?_⟩
  · refine Or.inl ⟨[], [("label".toList, l)] ++ dp, by simp, fun x hx => ?_⟩
    rcases List.mem_append.1 hx with hx | hx
    · obtain rfl := List.mem_singleton.1 hx
      show "label".toList ≠ _; decide
    · rw [hds x hx]; decide
  · refine Or.inl ⟨[("id".toList, t)], dp, by simp, fun x hx => ?_⟩
    rw [hds x hx]; decide

end

/-- The options that are used by an output are those of the last calls. -/
example (o : Options) (labels labels' : List (List Char)) (b b' : Bool) (represent : α → List Char) (K : Complex α) :
    write (writeSimplexDataForVertices (setNodeLabels (writeSimplexDataForVertices (setNodeLabels o labels') b') labels) b) represent K = write ⟨labels, b⟩ represent K := rfl

/-! ### Examples -/

/-- A complex, for the examples. -/
def exampleComplex : Complex ℕ := [⟨[1], 4⟩, ⟨[2], 5⟩, ⟨[3], 6⟩, ⟨[2, 1], 7⟩, ⟨[3, 1], 8⟩, ⟨[3, 2], 9⟩, ⟨[3, 2, 1], 9⟩]

/-- Hypotheses of C135: all hypotheses hold for decimal numbers. -/
example : Spec.WF exampleComplex ∧ (∀ s ∈ exampleComplex, Token (Utilities.decimal s.data)) ∧ (∀ s ∈ exampleComplex, s.vertices.length = 2 → Value (Utilities.decimal s.data)) ∧
    ∃ text, write ⟨["A".toList, "B c".toList, []], true⟩ Utilities.decimal exampleComplex = some text := by
  refine ⟨⟨by decide, by decide, by decide⟩, fun s _ => decimal_token _, fun s _ _ => decimal_value _, ?_⟩
  rw [← Option.isSome_iff_exists, ← Option.ne_none_iff_isSome, Ne, Aleph.C135_exception]
  rintro (⟨s, hs, h⟩ | ⟨_, s, hs, u, h, h'⟩)
  · exact absurd h (by revert s; decide)
  · simp only [exampleComplex, List.mem_cons, List.not_mem_nil, or_false] at hs
    rcases hs with rfl | rfl | rfl | rfl | rfl | rfl | rfl <;> simp at h <;> subst h <;> simp at h'

/-- Hypotheses of C135_exception: with labels, the vertex zero raises an exception. -/
example : write ⟨["A".toList, "B".toList], false⟩ Utilities.decimal ([⟨[0], 1⟩, ⟨[1], 1⟩] : Complex ℕ) = none := by
  rw [Aleph.C135_exception]
  exact Or.inr ⟨by simp, ⟨[0], 1⟩, by simp, 0, rfl, Or.inl rfl⟩

/-- Hypotheses of C135_lost: a representation with a sign. -/
example : Token "-4".toList ∧ ¬ Value "-4".toList := ⟨⟨by simp, by simp [Blank], by decide⟩, by simp [Value, Letter, Digit]⟩

end Aleph.GmlWriter
