import Verif.Model.SimplicialComplexReader
import Verif.Props.Filesystem
import Verif.Props.GmlReader
import Verif.Props.PajekReader

/-!
# C139: reading files of any format
-/

namespace Aleph.SimplicialComplexReader

variable {α : Type}

open Spec Spec.Files

/-! ### Labels -/

theorem setLabels (idMap : List (List Char × ℕ)) (pos : List Char → ℕ) (es : List (List Char × List Char)) (hk : (es.map Prod.fst).Nodup) (hidx : ∀ e ∈ es, idMap.lookup e.1 = some (pos e.1))
    (hinj : ∀ e ∈ es, ∀ e' ∈ es, pos e.1 = pos e'.1 → e.1 = e'.1) : ∀ labels : List (List Char), (∀ e ∈ es, pos e.1 < labels.length) →
    ∃ labels', es.foldlM (setLabel idMap) labels = some labels' ∧ labels'.length = labels.length ∧ (∀ e ∈ es, labels'[pos e.1]? = if e.2.isEmpty then labels[pos e.1]? else some e.2) ∧
      ∀ i, (∀ e ∈ es, pos e.1 ≠ i) → labels'[i]? = labels[i]? := by
  induction es with
  | nil => exact fun labels _ => ⟨labels, rfl, rfl, by simp, by simp⟩
  | cons e es ih =>
    intro labels hlen
    rw [List.map_cons, List.nodup_cons] at hk
    have hne : ∀ e' ∈ es, pos e'.1 ≠ pos e.1 := by
      intro e' he' h
      exact hk.1 (List.mem_map.2 ⟨e', he', (hinj e' (List.mem_cons_of_mem _ he') e List.mem_cons_self h)⟩)
    have hlen' := hlen e List.mem_cons_self
    have hset : ∃ l1, setLabel idMap labels e = some l1 ∧ l1.length = labels.length ∧ (l1[pos e.1]? = if e.2.isEmpty then labels[pos e.1]? else some e.2) ∧ ∀ i, pos e.1 ≠ i → l1[i]? = labels[i]? := by
      rw [setLabel]
      by_cases h : e.2.isEmpty
      · exact ⟨labels, by rw [if_pos h], rfl, by rw [if_pos h], fun _ _ => rfl⟩
      · rw [if_neg h, hidx e List.mem_cons_self]
        refine ⟨labels.set (pos e.1) e.2, by simp only [if_pos hlen'], by simp, ?_, ?_⟩
        · rw [if_neg h, List.getElem?_set_self hlen']
        · exact fun i hi => List.getElem?_set_ne hi
    obtain ⟨l1, h1, h2, h3, h4⟩ := hset
    obtain ⟨l2, g1, g2, g3, g4⟩ := ih hk.2 (fun e' h => hidx e' (List.mem_cons_of_mem _ h)) (fun a ha b hb => hinj a (List.mem_cons_of_mem _ ha) b (List.mem_cons_of_mem _ hb)) l1
      (fun e' h => by rw [h2]; exact hlen e' (List.mem_cons_of_mem _ h))
    refine ⟨l2, ?_, g2.trans h2, ?_, ?_⟩
    · rw [List.foldlM_cons, h1]
      exact g1
    · intro e' he'
      rcases List.mem_cons.1 he' with rfl | he'
      · rw [g4 _ hne, h3]
      · rw [g3 e' he', h4 _ (hne e' he').symm]
    · intro i hi
      rw [g4 i fun e' he' => hi e' (List.mem_cons_of_mem _ he'), h4 i (hi e List.mem_cons_self)]

theorem filter_length_lt {β : Type} (p q : β → Bool) (l : List β) (h : ∀ x ∈ l, p x = true → q x = true) (x : β) (hx : x ∈ l) (hp : p x = false) (hq : q x = true) :
    (l.filter p).length < (l.filter q).length := by
  rw [← List.countP_eq_length_filter, ← List.countP_eq_length_filter]
  induction l with
  | nil => cases hx
  | cons y l ih =>
    have hle : l.countP p ≤ l.countP q := List.countP_mono_left fun z hz => h z (List.mem_cons_of_mem _ hz)
    rw [List.countP_cons, List.countP_cons]
    rcases List.mem_cons.1 hx with rfl | hx
    · rw [hp, hq]
      simp only [Bool.false_eq_true, if_false, if_true]
      omega
    · have := ih (fun z hz => h z (List.mem_cons_of_mem _ hz)) hx
      by_cases hpy : p y = true
      · rw [hpy, h y List.mem_cons_self hpy]
        omega
      · rw [if_neg hpy]
        omega

theorem position_lt {ids : List (List Char)} {a : List Char} (ha : a ∈ ids) : GmlReader.position ids a < ids.dedup.length := by
  rw [GmlReader.position, if_pos ha]
  have := filter_length_lt (fun x : List Char => decide (x < a)) (fun _ => true) ids.dedup (by simp) a (List.mem_dedup.2 ha) (by simp) rfl
  rwa [List.filter_true] at this

theorem position_strict {ids : List (List Char)} {a b : List Char} (ha : a ∈ ids) (hb : b ∈ ids) (h : a < b) : GmlReader.position ids a < GmlReader.position ids b := by
  rw [GmlReader.position, GmlReader.position, if_pos ha, if_pos hb]
  exact filter_length_lt _ _ _ (fun x _ hx => by simpa using lt_trans (by simpa using hx) h) a (List.mem_dedup.2 ha) (by simp) (by simpa using h)

theorem position_inj {ids : List (List Char)} {a b : List Char} (ha : a ∈ ids) (hb : b ∈ ids) (h : GmlReader.position ids a = GmlReader.position ids b) : a = b := by
  rcases lt_trichotomy a b with h' | h' | h'
  · exact absurd h (position_strict ha hb h').ne
  · exact h'
  · exact absurd h.symm (position_strict hb ha h').ne

theorem lookup_map {β : Type} (g : List Char → β) (ids : List (List Char)) {id : List Char} (h : id ∈ ids) : (ids.map fun x => (x, g x)).lookup id = some (g id) := by
  induction ids with
  | nil => cases h
  | cons x ids ih =>
    rw [List.map_cons, List.lookup_cons]
    by_cases hx : id = x
    · subst hx; simp
    · rw [show (id == x) = false by simpa using hx]
      exact ih ((List.mem_cons.1 h).resolve_left hx)

theorem labels_spec (s : GmlReader.Storage) (k : List Char) : ∃ labels, getIndexedLabels (GmlReader.getNodeAttribute s k) (GmlReader.idToIndex s) = some labels ∧
    labels.length = (s.nodes.map (·.id)).dedup.length ∧
    ∀ id ∈ s.nodes.map (·.id), labels[GmlReader.position (s.nodes.map (·.id)) id]? = some (((GmlReader.getNodeAttribute s k).lookup id).getD []) := by
  by_cases hn : s.nodes = []
  · refine ⟨[], ?_, ?_, ?_⟩ <;> simp [hn, getIndexedLabels, GmlReader.getNodeAttribute]
  have h1 : (GmlReader.getNodeAttribute s k).isEmpty = false := by
    rw [List.isEmpty_eq_false_iff]
    simp [GmlReader.getNodeAttribute, hn]
  have h2 : (GmlReader.idToIndex s).isEmpty = false := by
    rw [List.isEmpty_eq_false_iff]
    simp [GmlReader.idToIndex, hn]
  set ids := s.nodes.map (·.id) with hids
  have hmap : (GmlReader.getNodeAttribute s k).map Prod.fst = ids.reverse := by
    rw [GmlReader.getNodeAttribute, List.map_reverse, List.map_map, hids]
    rfl
  have hidx : ∀ id ∈ ids, (GmlReader.idToIndex s).lookup id = some (GmlReader.position ids id) := by
    intro id hid
    have : GmlReader.idToIndex s = ids.reverse.map fun x => (x, GmlReader.position ids x) := by
      rw [GmlReader.idToIndex, hids, ← List.map_reverse, ← List.map_reverse, List.map_map]
      rfl
    rw [this]
    exact lookup_map _ _ (List.mem_reverse.2 hid)
  have hperm : (GmlReader.sortedNames ids.reverse).Perm ids.dedup := by
    refine (List.perm_insertionSort _ _).trans ?_
    rw [List.perm_ext_iff_of_nodup (List.nodup_dedup _) (List.nodup_dedup _)]
    simp
  have hfst : (entries (GmlReader.getNodeAttribute s k)).map Prod.fst = GmlReader.sortedNames ids.reverse := by
    rw [entries, List.map_map, hmap]
    exact List.map_id _
  have hlen : (entries (GmlReader.getNodeAttribute s k)).length = ids.dedup.length := by
    rw [← hperm.length_eq, ← hfst, List.length_map]
  have hmem : ∀ e ∈ entries (GmlReader.getNodeAttribute s k), e.1 ∈ ids := by
    intro e he
    have := List.mem_map_of_mem (f := Prod.fst) he
    rw [hfst, hperm.mem_iff, List.mem_dedup] at this
    exact this
  obtain ⟨labels, g1, g2, g3, g4⟩ := setLabels (GmlReader.idToIndex s) (GmlReader.position ids) (entries (GmlReader.getNodeAttribute s k)) (by rw [hfst]; exact hperm.nodup_iff.2 (List.nodup_dedup _))
    (fun e he => hidx _ (hmem e he)) (fun a ha b hb h => position_inj (hmem a ha) (hmem b hb) h) (List.replicate (entries (GmlReader.getNodeAttribute s k)).length [])
    (fun e he => by rw [List.length_replicate, hlen]; exact position_lt (hmem e he))
  refine ⟨labels, ?_, ?_, ?_⟩
  · rw [getIndexedLabels, h1, h2]
    exact g1
  · rw [g2, List.length_replicate, hlen]
  · intro id hid
    have he : (id, ((GmlReader.getNodeAttribute s k).lookup id).getD []) ∈ entries (GmlReader.getNodeAttribute s k) := by
      rw [entries, hmap]
      exact List.mem_map.2 ⟨id, hperm.mem_iff.2 (List.mem_dedup.2 hid), rfl⟩
    rw [g3 _ he]
    split_ifs with h
    · rw [List.isEmpty_iff] at h
      simp only at h ⊢
      rw [h, List.getElem?_replicate, if_pos]
      rw [hlen]
      exact position_lt hid
    · rfl

section

variable [Zero α] [LinearOrder α] (c : Context α) (r : Reader) (f : α → α → α) (files : List Char → Option (List Char)) (K : Complex α)

/-- The extension of the name of a file. -/
def HasExtension (filename ext : List Char) : Prop := ∃ name stem, Filename filename name ∧ Spec.Files.Extension name stem ext

theorem hasExtension_iff (filename ext : List Char) : HasExtension filename ext ↔ Filesystem.extension filename = ext := by
  constructor
  · rintro ⟨name, stem, h1, h2⟩
    exact ((C138_extension filename stem ext).2 ⟨name, h1, h2⟩).2
  · rintro rfl
    obtain ⟨name, h1, h2⟩ := (C138_extension filename _ _).1 ⟨rfl, rfl⟩
    exact ⟨name, _, h1, h2⟩

/-- **C139 (missing files).** If the file cannot be opened, an exception is thrown. -/
theorem _root_.Aleph.C139_missing (filename : List Char) (h : files filename = none) : read c r f files filename K = .error .exception := by
  rw [read, h]

/-- **C139 (formats).** The extension of the name determines the format: the complex is the one that the reader for this format returns.  Only the reader for VTK files makes use of the functor;
only the reader for PLY files makes use of the data attribute, and only if it is not empty; and only the readers for GML and Pajek files change the labels. -/
theorem _root_.Aleph.C139_formats (filename text : List Char) (h : files filename = some text) :
    (HasExtension filename ".gml".toList →
      (read c r f files filename K).map Prod.snd =
        (match GmlReader.read c.stoll c.convert max text with | .error .exception => .error .exception | .error .undefined => .error .undefined | .ok (_, K) => .ok K)) ∧
    (HasExtension filename ".h5".toList → read c r f files filename K = (match c.hdf5 text with | none => .error .exception | some K => .ok (r, K))) ∧
    (HasExtension filename ".net".toList →
      (read c r f files filename K).map Prod.snd = (match PajekReader.read c.stoul c.convert [] text with | none => .error .exception | some (_, K) => .ok K)) ∧
    (HasExtension filename ".ply".toList → read c r f files filename K =
      (match PlyReader.read c.lo c.hi c.extract c.real c.convert (if r.dataAttribute = [] then ['z'] else r.dataAttribute) text with
        | .error .exception => .error .exception | .error .assertion => .error .assertion | .error .undefined => .error .undefined | .ok K => .ok (r, K))) ∧
    (HasExtension filename ".vtk".toList →
      read c r f files filename K = (match VtkReader.read c.stoul c.convert f {} K text with | .error _ => .error .exception | .ok (_, K) => .ok (r, K))) ∧
    ((∀ ext ∈ [".gml".toList, ".h5".toList, ".net".toList, ".ply".toList, ".vtk".toList], ¬ HasExtension filename ext) →
      read c r f files filename K = (match EdgeListReader.read {} c.convertVertex c.convert [] text with | none => .error .exception | some (_, K) => .ok (r, K))) := by
  simp only [hasExtension_iff]
  refine ⟨fun he => ?_, fun he => ?_, fun he => ?_, fun he => ?_, fun he => ?_, fun he => ?_⟩
  · rw [read, h]
    simp only [he, if_true, readGml]
    cases GmlReader.read c.stoll c.convert max text with
    | error e => cases e <;> rfl
    | ok x =>
      obtain ⟨labels, hl, _⟩ := labels_spec x.1 r.labelAttribute
      simp only [hl]
      rfl
  · rw [read, h]
    simp only [he]
    rw [if_neg (by decide), if_pos trivial]
    rfl
  · rw [read, h]
    simp only [he]
    rw [if_neg (by decide), if_neg (by decide), if_pos trivial, readPajek]
    cases PajekReader.read c.stoul c.convert [] text <;> rfl
  · rw [read, h]
    simp only [he]
    rw [if_neg (by decide), if_neg (by decide), if_neg (by decide), if_pos trivial, readPly, property, PlyReader.defaultProperty]
    simp only [List.isEmpty_iff]
    cases PlyReader.read c.lo c.hi c.extract c.real c.convert (if r.dataAttribute = [] then ['z'] else r.dataAttribute) text with
    | error e => cases e <;> rfl
    | ok K => rfl
  · rw [read, h]
    simp only [he]
    rw [if_neg (by decide), if_neg (by decide), if_neg (by decide), if_neg (by decide), if_pos trivial]
    rfl
  · simp only [List.mem_cons, List.not_mem_nil, or_false, forall_eq_or_imp, forall_eq] at he
    obtain ⟨h1, h2, h3, h4, h5⟩ := he
    rw [read, h]
    simp only
    rw [if_neg h1, if_neg h2, if_neg h3, if_neg h4, if_neg h5]
    rfl

/-- **C139 (readers are independent of the functor).** Except for VTK files, another functor leads to the same result. -/
theorem _root_.Aleph.C139_functor (g : α → α → α) (filename : List Char) (h : ¬ HasExtension filename ".vtk".toList) : read c r f files filename K = read c r g files filename K := by
  rw [hasExtension_iff] at h
  rw [read, read]
  cases files filename with
  | none => rfl
  | some text =>
    simp only
    split_ifs <;> rfl

/-- **C139 (default).** Without a functor, the maximum is used. -/
theorem _root_.Aleph.C139_maximum (filename : List Char) : readMaximum c r files filename K = read c r (fun a b => if a ≤ b then b else a) files filename K := by
  have : (max : α → α → α) = fun a b => if a ≤ b then b else a := by
    funext a b
    exact max_def a b
  rw [readMaximum, this]

/-- **C139 (labels of GML files).** For each node of a GML file, the value of the attribute for labels is stored at the position of the identifier of the node among all identifiers in lexicographical
order; if the identifiers are not numbers, this is the vertex of the node. -/
theorem _root_.Aleph.C139_gml_labels {filename text : List Char} (h : files filename = some text) (he : HasExtension filename ".gml".toList) {ls : List (List Char)} {u : Bool}
    (hl : Spec.Lines text ls u) {ns es : List (List (List Char × List Char))} (hf : Gml.File ls ns es) {r' : Reader} {K' : Complex α} (hr : read c r f files filename K = .ok (r', K'))
    (ids : List (List Char)) (hids : List.Forall₂ (fun as id => Gml.ValueOr as "id".toList id) ns ids) (hk : r.labelAttribute ∉ ["id".toList, "source".toList, "target".toList]) :
    r' = { r with labels := r'.labels } ∧ r'.labels.length = ns.length ∧
    ∀ as ∈ ns, ∀ id label, Gml.ValueOr as "id".toList id → Gml.ValueOr as r.labelAttribute label →
      (∃ l : List (List Char), l.Nodup ∧ (∀ x, x ∈ l ↔ x ∈ ids ∧ x < id) ∧ r'.labels[l.length]? = some label) ∧
      ∀ v, c.stoll id = .invalid → Gml.VertexOf c.stoll ids id v → r'.labels[v]? = some label := by
  rw [hasExtension_iff] at he
  rw [read, h] at hr
  simp only [he, if_true, readGml] at hr
  split at hr
  · cases hr
  rename_i s K₀ hs
  obtain ⟨labels, h1, h2, h3⟩ := labels_spec s r.labelAttribute
  rw [h1] at hr
  obtain ⟨rfl, rfl⟩ := Prod.mk.inj (Except.ok.inj hr)
  obtain ⟨hst, hnd⟩ := GmlReader.stored c.stoll c.convert max hl hf hs
  have hids' : s.nodes.map (·.id) = ids := by
    rw [hst]
    clear hf hs hr hnd hst h1 h2 h3
    induction hids with
    | nil => rfl
    | @cons as id _ _ h _ ih =>
      have := (GmlReader.nodeFrom_spec as).1
      rw [GmlReader.valueOr_iff] at h this
      simp only [List.map_cons] at ih ⊢
      rw [ih, ← h, this]
  have hnd' : ids.Nodup := by
    rw [hst] at hids'
    rw [← hids']
    exact hnd
  rw [hids'] at h2 h3
  refine ⟨rfl, ?_, ?_⟩
  · rw [h2, List.Nodup.dedup hnd', hids.length_eq]
  · intro as has id label hid hlab
    simp only [List.mem_cons, List.not_mem_nil, or_false, not_or] at hk
    have hmem : id ∈ ids := by
      rw [← hids', hst]
      refine List.mem_map.2 ⟨GmlReader.nodeFrom as, List.mem_map_of_mem has, ?_⟩
      have := (GmlReader.nodeFrom_spec as).1
      rw [GmlReader.valueOr_iff] at hid this
      rw [← hid, this]
    have hlook := (C134_attributes c.stoll c.convert max hl hf hs).2.2.1 as has id r.labelAttribute label hid hk.1 hk.2.1 hk.2.2 hlab
    have hval := h3 id hmem
    rw [hlook] at hval
    obtain ⟨l, l1, l2, l3, l4⟩ := C134_index c.stoll c.convert max hl hf hs ids hids id hmem
    have hpos : GmlReader.position ids id = l.length := by
      rw [GmlReader.position, if_pos hmem]
      refine List.Perm.length_eq ?_
      rw [List.perm_ext_iff_of_nodup (ids.nodup_dedup.filter _) l1]
      intro x
      rw [l2]
      simp
    rw [hpos] at hval
    refine ⟨⟨l, l1, l2, hval⟩, fun v hinv hv => ?_⟩
    rw [(l4 v hinv).1 hv]
    exact hval

theorem read_gml {filename text : List Char} (h : files filename = some text) (he : HasExtension filename ".gml".toList) {ls : List (List Char)} {u : Bool}
    (hl : Spec.Lines text ls u) {ns es : List (List (List Char × List Char))} (hf : Gml.File ls ns es)
    (ns' : List (Gml.NodeInfo α)) (es' : List (Gml.EdgeInfo α)) (hn : List.Forall₂ (Gml.IsNode c.stoll c.convert (ns'.map (·.id))) ns ns')
    (hes : List.Forall₂ (Gml.IsEdge c.stoll c.convert max (ns'.map (·.id)) ns') es es') (hid : (ns'.map (·.id)).Nodup) (hv : ∀ m ∈ ns', ∀ n ∈ ns', m.vertex = n.vertex → m.data = n.data) :
    ∃ r' K', read c r f files filename K = .ok (r', K') ∧ Collects K' (ns'.map (fun n => ([n.vertex], n.data)) ++ es'.map fun e => ([e.source, e.target], e.data)) := by
  obtain ⟨s, K', h1, h2, _⟩ := C134_read_partial c.stoll c.convert max hl hf ns' es' hn hes hid hv
  obtain ⟨labels, h3, _⟩ := labels_spec s r.labelAttribute
  rw [hasExtension_iff] at he
  refine ⟨{ r with labels := labels }, K', ?_, h2⟩
  rw [read, h]
  simp only [he, if_true, readGml, h1, h3]

/-- The entries of a complex. -/
theorem entry_data {K : Complex α} {l : List (List ℕ × α)} (h : Collects K l) {S : Finset ℕ} {d : α} (hd : ∀ e ∈ l, e.1.toFinset = S → e.2 = d) (hS : ∃ e ∈ l, e.1.toFinset = S) :
    ∃ s ∈ K, s.vset = S ∧ s.data = d := by
  obtain ⟨e, he, rfl⟩ := hS
  obtain ⟨s, hs, hse⟩ := List.mem_map.1 (h.2.1 e he)
  have := h.2.2.2 s hs
  refine ⟨s, hs, hse, ?_⟩
  obtain ⟨x, hx, hxd⟩ := Option.map_eq_some_iff.1 this
  have h1 := List.find?_some hx
  rw [decide_eq_true_eq, hse] at h1
  rw [← hxd]
  exact hd x (List.mem_of_find?_eq_some hx) h1

/-- **C139 (weights of GML files).** The weights of GML files are not made consistent: an edge whose weight is smaller than the weight of one of its nodes keeps it. -/
theorem _root_.Aleph.C139_inconsistent {filename text : List Char} (h : files filename = some text) (he : HasExtension filename ".gml".toList) {ls : List (List Char)} {u : Bool}
    (hl : Spec.Lines text ls u) {ns es : List (List (List Char × List Char))} (hf : Gml.File ls ns es)
    (ns' : List (Gml.NodeInfo α)) (es' : List (Gml.EdgeInfo α)) (hn : List.Forall₂ (Gml.IsNode c.stoll c.convert (ns'.map (·.id))) ns ns')
    (hes : List.Forall₂ (Gml.IsEdge c.stoll c.convert max (ns'.map (·.id)) ns') es es') (hid : (ns'.map (·.id)).Nodup) (hv : (ns'.map (·.vertex)).Nodup)
    (hone : (es'.map fun e => ({e.source, e.target} : Finset ℕ)).Nodup) (hloop : ∀ e ∈ es', e.source ≠ e.target) (n : Gml.NodeInfo α) (hnmem : n ∈ ns') (e : Gml.EdgeInfo α) (hemem : e ∈ es')
    (hend : n.vertex = e.source ∨ n.vertex = e.target) (hlt : e.data < n.data) :
    ∃ r' K', read c r f files filename K = .ok (r', K') ∧ ∃ s ∈ K', ∃ t ∈ K', s.vset ⊂ t.vset ∧ t.data < s.data := by
  obtain ⟨r', K', h1, h2⟩ := read_gml c r f files K h he hl hf ns' es' hn hes hid fun m hm n hn hmn => by rw [List.inj_on_of_nodup_map hv hm hn hmn]
  refine ⟨r', K', h1, ?_⟩
  obtain ⟨s, hs, hsv, hsd⟩ := entry_data h2 (S := {n.vertex}) (d := n.data) (by
    intro x hx hxv
    rcases List.mem_append.1 hx with hx | hx
    · obtain ⟨m, hm, rfl⟩ := List.mem_map.1 hx
      have : m.vertex = n.vertex := by simpa using hxv
      rw [List.inj_on_of_nodup_map hv hm hnmem this]
    · obtain ⟨a, ha, rfl⟩ := List.mem_map.1 hx
      have := congrArg Finset.card hxv
      simp [Finset.card_pair (hloop a ha)] at this) ⟨_, List.mem_append_left _ (List.mem_map_of_mem hnmem), by simp⟩
  obtain ⟨t, ht, htv, htd⟩ := entry_data h2 (S := {e.source, e.target}) (d := e.data) (by
    intro x hx hxv
    rcases List.mem_append.1 hx with hx | hx
    · obtain ⟨m, hm, rfl⟩ := List.mem_map.1 hx
      have := congrArg Finset.card hxv
      simp [Finset.card_pair (hloop e hemem)] at this
    · obtain ⟨a, ha, rfl⟩ := List.mem_map.1 hx
      have : ({a.source, a.target} : Finset ℕ) = {e.source, e.target} := by simpa using hxv
      rw [List.inj_on_of_nodup_map hone ha hemem this]) ⟨_, List.mem_append_right _ (List.mem_map_of_mem hemem), by simp⟩
  refine ⟨s, hs, t, ht, ?_, by rw [hsd, htd]; exact hlt⟩
  rw [hsv, htv, Finset.ssubset_iff_of_subset]
  · rcases hend with h | h
    · exact ⟨e.target, by simp, by rw [h]; simpa using (hloop e hemem).symm⟩
    · exact ⟨e.source, by simp, by rw [h]; simpa using hloop e hemem⟩
  · intro x hx
    rw [Finset.mem_singleton] at hx
    subst hx
    rcases hend with h | h <;> simp [h]

/-- **C139 (order of GML files).** The simplices of GML files are not sorted: nodes are in the order of the file, even if their weights are not. -/
theorem _root_.Aleph.C139_unsorted {filename text : List Char} (h : files filename = some text) (he : HasExtension filename ".gml".toList) {ls : List (List Char)} {u : Bool}
    (hl : Spec.Lines text ls u) {ns es : List (List (List Char × List Char))} (hf : Gml.File ls ns es)
    (ns' : List (Gml.NodeInfo α)) (es' : List (Gml.EdgeInfo α)) (hn : List.Forall₂ (Gml.IsNode c.stoll c.convert (ns'.map (·.id))) ns ns')
    (hes : List.Forall₂ (Gml.IsEdge c.stoll c.convert max (ns'.map (·.id)) ns') es es') (hid : (ns'.map (·.id)).Nodup) (hv : (ns'.map (·.vertex)).Nodup)
    (hloop : ∀ e ∈ es', e.source ≠ e.target) (hlt : ∃ a m n b, ns' = a ++ m :: n :: b ∧ n.data < m.data) :
    ∃ r' K', read c r f files filename K = .ok (r', K') ∧ ¬ K'.Pairwise fun s t => s.data ≤ t.data := by
  obtain ⟨r', K', h1, h2⟩ := read_gml c r f files K h he hl hf ns' es' hn hes hid fun m hm n hn hmn => by rw [List.inj_on_of_nodup_map hv hm hn hmn]
  refine ⟨r', K', h1, fun hp => ?_⟩
  obtain ⟨a, m, n, b, rfl, hlt⟩ := hlt
  have hvn : ∀ x ∈ a ++ m :: n :: b, ∃ s ∈ K', s.vset = {x.vertex} ∧ s.data = x.data := fun x hx => entry_data h2 (by
    intro y hy hyv
    rcases List.mem_append.1 hy with hy | hy
    · obtain ⟨z, hz, rfl⟩ := List.mem_map.1 hy
      have : z.vertex = x.vertex := by simpa using hyv
      rw [List.inj_on_of_nodup_map hv hz hx this]
    · obtain ⟨e, he, rfl⟩ := List.mem_map.1 hy
      have := congrArg Finset.card hyv
      simp [Finset.card_pair (hloop e he)] at this) ⟨_, List.mem_append_left _ (List.mem_map_of_mem hx), by simp⟩
  obtain ⟨s, hs, hsv, hsd⟩ := hvn m (by simp)
  obtain ⟨t, ht, htv, htd⟩ := hvn n (by simp)
  have hsub := h2.2.2.1
  have hent : (((a ++ m :: n :: b).map fun n => ([n.vertex], n.data)) ++ es'.map fun e => ([e.source, e.target], e.data)).map (fun e => (e.1.toFinset, e.2)) =
      (a ++ [m]).map (fun x => (({x.vertex} : Finset ℕ), x.data)) ++ ((n :: b).map (fun x => (({x.vertex} : Finset ℕ), x.data)) ++ es'.map fun e => (({e.source, e.target} : Finset ℕ), e.data)) := by
    simp [Function.comp_def]
  rw [hent, List.sublist_append_iff] at hsub
  obtain ⟨P, Q, hPQ, hP, hQ⟩ := hsub
  obtain ⟨K1, K2, rfl, rfl, rfl⟩ := List.map_eq_append_iff.1 hPQ
  rw [List.pairwise_append] at hp
  have hne : m.vertex ∉ (n :: b).map (·.vertex) := by
    rw [List.map_append, List.map_cons, List.nodup_append] at hv
    exact (List.nodup_cons.1 hv.2.1).1
  have hne' : n.vertex ∉ (a ++ [m]).map (·.vertex) := by
    rw [show (a ++ m :: n :: b) = (a ++ [m]) ++ (n :: b) by simp, List.map_append, List.nodup_append] at hv
    exact fun h => hv.2.2 _ h _ (by simp) rfl
  have hs1 : s ∈ K1 := by
    rcases List.mem_append.1 hs with h | h
    · exact h
    · have := hQ.subset (List.mem_map_of_mem h)
      simp only [List.mem_append, List.mem_map, Prod.mk.injEq, hsv] at this
      rcases this with ⟨x, hx, h, _⟩ | ⟨e, he, h, _⟩
      · exact absurd (List.mem_map.2 ⟨x, hx, by simpa using h⟩) hne
      · have := congrArg Finset.card h
        simp [Finset.card_pair (hloop e he)] at this
  have ht2 : t ∈ K2 := by
    rcases List.mem_append.1 ht with h | h
    · have := hP.subset (List.mem_map_of_mem h)
      simp only [List.mem_map, Prod.mk.injEq, htv] at this
      obtain ⟨x, hx, h, _⟩ := this
      exact absurd (List.mem_map.2 ⟨x, hx, by simpa using h⟩) hne'
    · exact h
  have := hp.2.2 s hs1 t ht2
  rw [hsd, htd] at this
  exact absurd hlt (not_lt.2 this)

/-- **C139 (labels of Pajek files).** The labels of Pajek files that are not empty are stored in the lexicographical order of the numbers of their vertices, as texts. -/
theorem _root_.Aleph.C139_pajek_labels (hnum : PajekReader.Numbers c.stoul) {filename text : List Char} (h : files filename = some text) (he : HasExtension filename ".net".toList)
    {ls : List (List Char)} {u : Bool} (hl : Spec.Lines text ls u) {n : ℕ} {vs : List (List Char × List Char × ℕ)} {es : List (ℕ × ℕ × Option (List Char))} (hf : Pajek.File ls n vs es)
    (hd : (vs.map fun x => x.1).Nodup) (hlen : es = [] ∨ vs = [] ∨ n ≤ vs.length) (hsome : vs ≠ [] ∨ es ≠ [] ∨ n = 0) :
    ∃ (r' : Reader) (K' : Complex α) (order : List (List Char × List Char × ℕ)), read c r f files filename K = .ok (r', K') ∧ Collects K' (Pajek.simplices c.convert n vs es) ∧
      r' = { r with labels := r'.labels } ∧ order.Perm vs ∧ order.Pairwise (fun x y => x.1 < y.1) ∧ r'.labels = (order.map fun x => x.2.1).filter (fun label => decide (label ≠ [])) := by
  obtain ⟨K', h1, h2⟩ := C129_read_partial (convert := c.convert) hnum text hl hf [] hd (by simp) hlen hsome
  rw [List.nil_append] at h1
  rw [hasExtension_iff] at he
  set order := vs.insertionSort fun x y => x.1 ≤ y.1 with ho
  have hperm : order.Perm vs := List.perm_insertionSort _ _
  refine ⟨{ r with labels := getLabels (vs.map fun x => (x.1, x.2.1)) }, K', order, ?_, h2, rfl, hperm, ?_, ?_⟩
  · rw [read, h]
    simp only [he]
    rw [if_neg (by decide), if_neg (by decide), if_pos trivial, readPajek, h1]
  · have hle : order.Pairwise fun x y => x.1 ≤ y.1 := by
      have : Std.Total (fun x y : List Char × List Char × ℕ => x.1 ≤ y.1) := ⟨fun x y => le_total x.1 y.1⟩
      have : IsTrans (List Char × List Char × ℕ) (fun x y => x.1 ≤ y.1) := ⟨fun _ _ _ => le_trans⟩
      exact List.pairwise_insertionSort _ _
    have hne : order.Pairwise fun x y => x.1 ≠ y.1 := by
      have := (hperm.map fun x => x.1).nodup_iff.2 hd
      exact List.pairwise_map.1 this
    exact hle.imp₂ (fun _ _ h1 h2 => lt_of_le_of_ne h1 h2) hne
  · show getLabels _ = _
    rw [getLabels]
    split_ifs with hempty
    · have : vs = [] := by simpa using hempty
      subst this
      rfl
    · have := List.map_insertionSort (fun x y : List Char × List Char × ℕ => x.1 ≤ y.1) (fun x y : List Char × List Char => x.1 ≤ y.1) (fun x => (x.1, x.2.1)) vs (fun _ _ _ _ => Iff.rfl)
      rw [← this, List.map_map]
      congr 1
      funext label
      cases label <;> rfl

/-- **C139 (labels remain).** Files without labels do not change the labels of a file that was read before. -/
theorem _root_.Aleph.C139_stale {filename : List Char} (h1 : ¬ HasExtension filename ".gml".toList) (h2 : ¬ HasExtension filename ".net".toList) {r' : Reader} {K' : Complex α}
    (hr : read c r f files filename K = .ok (r', K')) : r' = r := by
  rw [hasExtension_iff] at h1 h2
  rw [read] at hr
  cases hfile : files filename with
  | none => rw [hfile] at hr; cases hr
  | some text =>
    rw [hfile] at hr
    simp only at hr
    rw [if_neg h1] at hr
    split_ifs at hr
    · rw [readHdf5] at hr
      split at hr
      · cases hr
      · exact (Prod.mk.inj (Except.ok.inj hr)).1.symm
    · rw [readPly] at hr
      split at hr
      · cases hr
      · exact (Prod.mk.inj (Except.ok.inj hr)).1.symm
    · rw [readVtk] at hr
      split at hr
      · cases hr
      · exact (Prod.mk.inj (Except.ok.inj hr)).1.symm
    · rw [readEdges] at hr
      split at hr
      · cases hr
      · exact (Prod.mk.inj (Except.ok.inj hr)).1.symm

omit [Zero α] [LinearOrder α] in
theorem exists_position {ids : List (List Char)} (hn : ids.Nodup) {v : ℕ} (hv : v < ids.length) : ∃ id ∈ ids, GmlReader.position ids id = v := by
  have himg : ids.toFinset.image (GmlReader.position ids) = Finset.range ids.length := by
    refine Finset.eq_of_subset_of_card_le ?_ ?_
    · intro x hx
      obtain ⟨a, ha, rfl⟩ := Finset.mem_image.1 hx
      have := position_lt (List.mem_toFinset.1 ha)
      rw [List.Nodup.dedup hn] at this
      exact Finset.mem_range.2 this
    · rw [Finset.card_image_of_injOn, List.toFinset_card_of_nodup hn, Finset.card_range]
      intro a ha b hb h
      exact position_inj (by simpa using ha) (by simpa using hb) h
  have : v ∈ ids.toFinset.image (GmlReader.position ids) := by rw [himg]; exact Finset.mem_range.2 hv
  obtain ⟨a, ha, h⟩ := Finset.mem_image.1 this
  exact ⟨a, List.mem_toFinset.1 ha, h⟩

/-- **C139 (labels of nodes with numbers).** A label that is unique is stored at the index of the vertex of its node if and only if this index is the number of smaller identifiers; in general, this does not
hold for identifiers that are numbers. -/
theorem _root_.Aleph.C139_gml_numbers {filename text : List Char} (h : files filename = some text) (he : HasExtension filename ".gml".toList) {ls : List (List Char)} {u : Bool}
    (hl : Spec.Lines text ls u) {ns es : List (List (List Char × List Char))} (hf : Gml.File ls ns es) {r' : Reader} {K' : Complex α} (hr : read c r f files filename K = .ok (r', K'))
    (ids : List (List Char)) (hids : List.Forall₂ (fun as id => Gml.ValueOr as "id".toList id) ns ids) (hnd : ids.Nodup) (hk : r.labelAttribute ∉ ["id".toList, "source".toList, "target".toList])
    (as : List (List Char × List Char)) (has : as ∈ ns) (id label : List Char) (hid : Gml.ValueOr as "id".toList id) (hlab : Gml.ValueOr as r.labelAttribute label)
    (huniq : ∀ as' ∈ ns, Gml.ValueOr as' r.labelAttribute label → Gml.ValueOr as' "id".toList id) (v : ℕ) :
    r'.labels[v]? = some label ↔ ∃ l : List (List Char), l.Nodup ∧ (∀ x, x ∈ l ↔ x ∈ ids ∧ x < id) ∧ v = l.length := by
  obtain ⟨_, h2, h3⟩ := C139_gml_labels c r f files K h he hl hf hr ids hids hk
  have hval : ∀ as ∈ ns, ∀ id label, Gml.ValueOr as "id".toList id → Gml.ValueOr as r.labelAttribute label → id ∈ ids ∧ r'.labels[GmlReader.position ids id]? = some label := by
    intro as has id label hid hlab
    obtain ⟨l, l1, l2, l3⟩ := (h3 as has id label hid hlab).1
    have hmem : id ∈ ids := by
      obtain ⟨i, hi, rfl⟩ := List.getElem_of_mem has
      have := (List.forall₂_iff_get.1 hids).2 i hi (by rw [← hids.length_eq]; exact hi)
      rw [GmlReader.valueOr_iff] at hid this
      simp only [List.get_eq_getElem] at this
      rw [← hid, this]
      exact List.getElem_mem _
    refine ⟨hmem, ?_⟩
    rw [GmlReader.position, if_pos hmem, ← l3]
    congr 1
    refine List.Perm.length_eq ?_
    rw [List.perm_ext_iff_of_nodup (ids.nodup_dedup.filter _) l1]
    intro x
    rw [l2]
    simp
  constructor
  · intro hv
    have hlt : v < ids.length := by
      rw [← hids.length_eq, ← h2]
      exact (List.getElem?_eq_some_iff.1 hv).1
    obtain ⟨id', hid', rfl⟩ := exists_position hnd hlt
    obtain ⟨i, hi, rfl⟩ := List.getElem_of_mem hid'
    have hi' : i < ns.length := by rw [hids.length_eq]; exact hi
    have hget := (List.forall₂_iff_get.1 hids).2 i hi' hi
    simp only [List.get_eq_getElem] at hget
    have h4 := (hval ns[i] (List.getElem_mem _) ids[i] _ hget ((GmlReader.valueOr_iff _ _ _).2 rfl)).2
    rw [hv] at h4
    have h5 := huniq ns[i] (List.getElem_mem _) ((GmlReader.valueOr_iff _ _ _).2 (Option.some.inj h4).symm)
    have h6 : ids[i] = id := by
      rw [GmlReader.valueOr_iff] at h5 hget
      rw [← h5, hget]
    rw [h6]
    have hmem := (hval as has id label hid hlab).1
    refine ⟨ids.dedup.filter (· < id), ids.nodup_dedup.filter _, fun x => by simp, ?_⟩
    rw [GmlReader.position, if_pos hmem]
  · rintro ⟨l, l1, l2, rfl⟩
    obtain ⟨l', l1', l2', l3'⟩ := (h3 as has id label hid hlab).1
    rw [← l3']
    congr 1
    refine List.Perm.length_eq ?_
    rw [List.perm_ext_iff_of_nodup l1 l1']
    intro x
    rw [l2, l2']

omit [Zero α] [LinearOrder α] in
theorem fold_lt_of_lt : ∀ (a b : List Char), a.length = b.length → (∀ c ∈ a, 48 ≤ c.toNat ∧ c.toNat ≤ 57) → ∀ x y : ℕ, x < y →
    a.foldl (fun n c => 10 * n + (c.toNat - 48)) x < b.foldl (fun n c => 10 * n + (c.toNat - 48)) y := by
  intro a
  induction a with
  | nil =>
    intro b hb _ x y h
    cases b with
    | nil => exact h
    | cons c b => simp at hb
  | cons c a ih =>
    intro b hb hc x y h
    cases b with
    | nil => simp at hb
    | cons d b =>
      simp only [List.foldl_cons]
      refine ih b (by simpa using hb) (fun e he => hc e (List.mem_cons_of_mem _ he)) _ _ ?_
      have := hc c List.mem_cons_self
      omega

omit [Zero α] [LinearOrder α] in
theorem fold_lt : ∀ (a b : List Char), a.length = b.length → (∀ c ∈ a, 48 ≤ c.toNat ∧ c.toNat ≤ 57) → a < b → ∀ x : ℕ,
    a.foldl (fun n c => 10 * n + (c.toNat - 48)) x < b.foldl (fun n c => 10 * n + (c.toNat - 48)) x := by
  intro a
  induction a with
  | nil =>
    intro b hb _ h x
    cases b with
    | nil => exact absurd h (lt_irrefl _)
    | cons c b => simp at hb
  | cons c a ih =>
    intro b hb hc h x
    cases b with
    | nil => simp at hb
    | cons d b =>
      simp only [List.foldl_cons]
      rcases List.cons_lt_cons_iff.1 h with h | ⟨rfl, h'⟩
      · refine fold_lt_of_lt a b (by simpa using hb) (fun e he => hc e (List.mem_cons_of_mem _ he)) _ _ ?_
        have h1 := hc c List.mem_cons_self
        have h2 : c.toNat < d.toNat := h
        omega
      · exact ih b (by simpa using hb) (fun e he => hc e (List.mem_cons_of_mem _ he)) h' _

/-- **C139 (labels of vertices in Pajek files).** If all vertices from 1 on have labels and their numbers have the same number of digits, then the label of a vertex is stored at the index before the number
of the vertex. -/
theorem _root_.Aleph.C139_pajek_vertices (hnum : PajekReader.Numbers c.stoul) {filename text : List Char} (h : files filename = some text) (he : HasExtension filename ".net".toList)
    {ls : List (List Char)} {u : Bool} (hl : Spec.Lines text ls u) {n : ℕ} {vs : List (List Char × List Char × ℕ)} {es : List (ℕ × ℕ × Option (List Char))} (hf : Pajek.File ls n vs es)
    (hd : (vs.map fun x => x.1).Nodup) (hlen : es = [] ∨ vs = [] ∨ n ≤ vs.length) (hsome : vs ≠ [] ∨ es ≠ [] ∨ n = 0)
    (hvs : (vs.map fun x => x.2.2).Perm (List.range' 1 vs.length)) (hlabel : ∀ x ∈ vs, x.2.1 ≠ []) (hnumeral : ∀ x ∈ vs, Pajek.Numeral x.1 x.2.2)
    (hdigits : ∀ x ∈ vs, ∀ y ∈ vs, x.1.length = y.1.length) :
    ∃ (r' : Reader) (K' : Complex α), read c r f files filename K = .ok (r', K') ∧ r'.labels.length = vs.length ∧ ∀ x ∈ vs, r'.labels[x.2.2 - 1]? = some x.2.1 := by
  obtain ⟨r', K', order, h1, _, _, h4, h5, h6⟩ := C139_pajek_labels c r f files K hnum h he hl hf hd hlen hsome
  have hfil : r'.labels = order.map fun x => x.2.1 := by
    rw [h6, List.filter_eq_self]
    intro label hlab
    obtain ⟨x, hx, rfl⟩ := List.mem_map.1 hlab
    simpa using hlabel x (h4.mem_iff.1 hx)
  have hord : order.Pairwise fun x y => x.2.2 < y.2.2 := by
    refine h5.imp_of_mem fun {x y} hx hy hxy => ?_
    rw [← (hnumeral x (h4.mem_iff.1 hx)).2.2, ← (hnumeral y (h4.mem_iff.1 hy)).2.2]
    exact fold_lt _ _ (hdigits x (h4.mem_iff.1 hx) y (h4.mem_iff.1 hy)) (hnumeral x (h4.mem_iff.1 hx)).2.1 hxy 0
  have hrange : (order.map fun x => x.2.2) = List.range' 1 vs.length := by
    refine ((h4.map fun x => x.2.2).trans hvs).eq_of_pairwise ?_ (List.pairwise_map.2 (hord.imp fun h => h.le)) ((List.pairwise_lt_range' (s := 1) (n := vs.length)).imp fun h => h.le)
    intro a b _ _ h1 h2
    exact le_antisymm h1 h2
  refine ⟨r', K', h1, by rw [hfil, List.length_map, h4.length_eq], fun x hx => ?_⟩
  obtain ⟨i, hi, rfl⟩ := List.getElem_of_mem (h4.mem_iff.2 hx)
  have : order[i].2.2 = 1 + i := by
    have := congrArg (fun l => l[i]?) hrange
    simp only [List.getElem?_map, List.getElem?_eq_getElem hi, Option.map_some] at this
    rw [List.getElem?_range' (by rw [← h4.length_eq]; exact hi)] at this
    simpa using this
  rw [this, hfil, Nat.add_sub_cancel_left, List.getElem?_map, List.getElem?_eq_getElem hi]
  rfl

end

/-! ### Examples -/

/-- Conversions, for the examples. -/
def exampleContext : Context ℕ where
  lo := 0
  hi := 0
  stoll := GmlReader.exampleNumber
  stoul := MatrixReader.digits
  extract := MatrixReader.digits
  real := fun t => !t.isEmpty
  convert := GmlReader.exampleConvert
  convertVertex := fun t => (MatrixReader.digits t).getD 0
  hdf5 := fun _ => none

/-- Files, for the examples. -/
def exampleFiles (text : List Char) : List Char → Option (List Char) := fun _ => some text

/-- Results, for the examples. -/
def exampleResult (filename text : String) : Option (List (List ℕ × ℕ) × List (List Char)) :=
  match read exampleContext {} min (exampleFiles text.toList) filename.toList [] with
  | .ok (r, K) => some (K.map fun s => (s.vertices, s.data), r.labels)
  | .error _ => none

/-- Hypotheses of C139_formats and C139_gml_labels: a file with names. -/
example : HasExtension "a.b/c.gml".toList ".gml".toList ∧ ¬ HasExtension "a.gml/c".toList ".gml".toList := by
  rw [hasExtension_iff, hasExtension_iff]
  decide

/-- C139_gml_labels, C139_unsorted: the labels of `b` and `a`, whose vertices are 1 and 0; the vertex 1 comes first, although its weight is larger. -/
example : exampleResult "c.gml" "graph [\nnode [\nid b\nlabel \"B\"\nweight 2\n]\nnode [\nid a\nlabel \"A\"\n]\n]\n" = some ([([1], 2), ([0], 0)], [['A'], ['B']]) := by decide

/-- C139_gml_numbers: the vertices 1 and 2, whose labels have the indices 0 and 1. -/
example : exampleResult "c.gml" "graph [\nnode [\nid 1\nlabel \"A\"\n]\nnode [\nid 2\nlabel \"B\"\n]\n]\n" = some ([([1], 0), ([2], 0)], [['A'], ['B']]) := by decide

/-- Lines, for the examples. -/
def exampleLines : List (List Char) :=
  ["graph [".toList, "node [".toList, "id 1".toList, "weight 2".toList, "]".toList, "node [".toList, "id 2".toList, "]".toList, "edge [".toList, "source 1".toList, "target 2".toList, "weight 1".toList,
   "]".toList, "]".toList]

theorem example_file : Gml.File exampleLines [[("id".toList, ['1']), ("weight".toList, ['2'])], [("id".toList, ['2'])]] [[("source".toList, ['1']), ("target".toList, ['2']), ("weight".toList, ['1'])]] := by
  refine ⟨[], ["graph [".toList], ["node [".toList, "id 1".toList, "weight 2".toList, "]".toList, "node [".toList, "id 2".toList, "]".toList, "edge [".toList, "source 1".toList, "target 2".toList,
    "weight 1".toList, "]".toList], "]".toList, [], rfl, by simp, GmlReader.opens_of (by decide), ?_, GmlReader.content_of (by decide), by simp⟩
  refine .node ["node [".toList, "id 1".toList, "weight 2".toList, "]".toList] _ _ _ _
    ⟨["node [".toList], ["id 1".toList, "weight 2".toList], "]".toList, rfl, GmlReader.opens_of (by decide), ?_, GmlReader.content_of (by decide)⟩ ?_
  · exact .cons _ _ _ _ _ (GmlReader.value_of GmlReader.key_id (by simp [Gml.Value, Gml.Digit]) (by decide))
      (.cons _ _ _ _ _ (GmlReader.value_of (GmlReader.key_plain "weight" (by simp)) (by simp [Gml.Value, Gml.Digit]) (by decide)) .nil)
  refine .node ["node [".toList, "id 2".toList, "]".toList] _ _ _ _
    ⟨["node [".toList], ["id 2".toList], "]".toList, rfl, GmlReader.opens_of (by decide), ?_, GmlReader.content_of (by decide)⟩ ?_
  · exact .cons _ _ _ _ _ (GmlReader.value_of GmlReader.key_id (by simp [Gml.Value, Gml.Digit]) (by decide)) .nil
  refine .edge ["edge [".toList, "source 1".toList, "target 2".toList, "weight 1".toList, "]".toList] [] _ _ _
    ⟨["edge [".toList], ["source 1".toList, "target 2".toList, "weight 1".toList], "]".toList, rfl, GmlReader.opens_of (by decide), ?_, GmlReader.content_of (by decide)⟩ .nil
  exact .cons _ _ _ _ _ (GmlReader.value_of (GmlReader.key_plain "source" (by simp)) (by simp [Gml.Value, Gml.Digit]) (by decide))
    (.cons _ _ _ _ _ (GmlReader.value_of (GmlReader.key_plain "target" (by simp)) (by simp [Gml.Value, Gml.Digit]) (by decide))
      (.cons _ _ _ _ _ (GmlReader.value_of (GmlReader.key_plain "weight" (by simp)) (by simp [Gml.Value, Gml.Digit]) (by decide)) .nil))

theorem example_nodes : List.Forall₂ (Gml.IsNode exampleContext.stoll exampleContext.convert [['1'], ['2']]) [[("id".toList, ['1']), ("weight".toList, ['2'])], [("id".toList, ['2'])]]
    [⟨['1'], 1, 2⟩, ⟨['2'], 2, 0⟩] :=
  .cons ⟨(GmlReader.valueOr_iff _ _ _).2 (by decide), Or.inl (by decide), Or.inl (Or.inl ⟨['2'], (GmlReader.lastValue_iff _ _ _).2 (by decide), by decide⟩)⟩
    (.cons ⟨(GmlReader.valueOr_iff _ _ _).2 (by decide), Or.inl (by decide), Or.inr ⟨by unfold Gml.Unweighted; decide, rfl⟩⟩ .nil)

theorem example_edges : List.Forall₂ (Gml.IsEdge exampleContext.stoll exampleContext.convert max [['1'], ['2']] [⟨['1'], 1, 2⟩, ⟨['2'], 2, 0⟩])
    [[("source".toList, ['1']), ("target".toList, ['2']), ("weight".toList, ['1'])]] [⟨1, 2, 1⟩] :=
  .cons ⟨['1'], ['2'], (GmlReader.valueOr_iff _ _ _).2 (by decide), (GmlReader.valueOr_iff _ _ _).2 (by decide), Or.inl (by decide), Or.inl (by decide),
    Or.inl (Or.inl ⟨['1'], (GmlReader.lastValue_iff _ _ _).2 (by decide), by decide⟩)⟩ .nil

/-- Hypotheses of C139_inconsistent and C139_unsorted: the edge has a smaller weight than its first vertex, and so has the second vertex. -/
example : (∃ r' K', read exampleContext {} min (exampleFiles (exampleLines.flatMap fun l => l ++ ['\n'])) "c.gml".toList [] = .ok (r', K') ∧
      ∃ s ∈ K', ∃ t ∈ K', s.vset ⊂ t.vset ∧ t.data < s.data) ∧
    ∃ r' K', read exampleContext {} min (exampleFiles (exampleLines.flatMap fun l => l ++ ['\n'])) "c.gml".toList [] = .ok (r', K') ∧ ¬ K'.Pairwise fun s t => s.data ≤ t.data := by
  have hl : Spec.Lines (exampleLines.flatMap fun l => l ++ ['\n']) exampleLines false := SparseReader.lines_flat rfl (by decide)
  have he : HasExtension "c.gml".toList ".gml".toList := (hasExtension_iff _ _).2 (by decide)
  exact ⟨C139_inconsistent exampleContext {} min _ [] rfl he hl example_file [⟨['1'], 1, 2⟩, ⟨['2'], 2, 0⟩] [⟨1, 2, 1⟩] example_nodes example_edges (by decide) (by decide) (by decide) (by decide) ⟨['1'], 1, 2⟩ (by simp) ⟨1, 2, 1⟩ (by simp)
      (Or.inl rfl) (by decide),
    C139_unsorted exampleContext {} min _ [] rfl he hl example_file [⟨['1'], 1, 2⟩, ⟨['2'], 2, 0⟩] [⟨1, 2, 1⟩] example_nodes example_edges (by decide) (by decide) (by decide) ⟨[], _, _, [], rfl, by decide⟩⟩

/-- C139_pajek_labels: the label of the vertex 10 precedes the label of the vertex 2, and the label of the vertex 1, which is empty, is missing. -/
example : exampleResult "c.net" "*Vertices 3\n1 \"\"\n2 \"B\"\n10 \"C\"\n" = some ([([1], 0), ([2], 0), ([10], 0)], [['C'], ['B']]) := by decide

/-- Hypotheses of C139_pajek_vertices: a file with two vertices. -/
example : ∃ (r' : Reader) (K' : Complex ℕ), read { exampleContext with stoul := fun d => some (d.foldl (fun n c => 10 * n + (c.toNat - 48)) 0) } {} min
    (exampleFiles "% x\n*vertices 2\n1 \"A\"\n2 \"B\"\n*Edges\n1 2 23\n".toList) "c.net".toList [] = .ok (r', K') ∧ r'.labels.length = 2 ∧
    ∀ x ∈ [(['1'], ['A'], 1), (['2'], ['B'], 2)], r'.labels[x.2.2 - 1]? = some x.2.1 :=
  C139_pajek_vertices _ {} min _ [] PajekReader.numbers_exists (filename := "c.net".toList) (text := "% x\n*vertices 2\n1 \"A\"\n2 \"B\"\n*Edges\n1 2 23\n".toList) rfl ((hasExtension_iff _ _).2 (by decide)) (SparseReader.lines_flat (by decide) (by decide)) PajekReader.example_file (by decide) (by simp) (by simp)
    (by decide) (by decide) (by simp [Pajek.Numeral]) (by decide)

/-- Other files are lists of edges; labels of files that were read before remain. -/
example : exampleResult "c.txt" "1 2 3\n" = some ([([1], 0), ([2], 0), ([2, 1], 3)], []) ∧
    (match read exampleContext ⟨[], [], [['A']]⟩ min (exampleFiles "1 2 3\n".toList) "c.txt".toList [] with | .ok (r, _) => some r.labels | .error _ => none) = some [['A']] := by decide

end Aleph.SimplicialComplexReader
