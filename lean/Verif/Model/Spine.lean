import Verif.Model.Complex

/-!
# Spines

Models `include/aleph/topology/Spine.hh` and the functions `sizeOfIntersection` and `intersect` for simplices of
`include/aleph/topology/Intersections.hh`.

Maps and sets of simplices compare vertices only, hence simplices stored in them are modelled by their vertices.  The
iteration order of a `std::unordered_map` is unspecified; the element returned by `begin()` in each round of the main
loops is selected by an arbitrary sequence `pick` of positions.
-/

namespace Aleph

namespace Spine

variable {α : Type}

/-- `sizeOfIntersection(s, t)`, `Intersections.hh:24-39`, for vertices without duplicates. -/
def sizeOfIntersection (s t : List Nat) : Nat := (s.filter fun v => t.contains v).length

/-- `intersect(s, t)`, `Intersections.hh:47-62`: the range constructor sorts the common vertices. -/
def intersect (s t : List Nat) : List Nat := uniq ((s.filter fun v => t.contains v).insertionSort (· ≥ ·))

/-! ### The reference implementation -/

/-- `dumb::isPrincipal(s, K)`, `Spine.hh:29-53`, for a non-empty simplex. -/
def isPrincipal (K : Complex α) (s : Simplex α) : Bool :=
  if Complex.dim s = 0 then false
  else (K.range (Complex.dim s + 1)).all fun t => sizeOfIntersection s.vertices t.vertices != s.size

/-- `dumb::isAdmissible(s, K)`, `Spine.hh:60-109`; `none` is the empty simplex. -/
def isAdmissible (K : Complex α) (s : Simplex α) : Option (List Nat) :=
  if isPrincipal K s then
    s.faces.find? fun f => (K.range (Complex.dim s)).all fun t =>
      t.vertices == s.vertices || sizeOfIntersection f t.vertices != f.length
  else none

/-- The search for a free face in `dumb::principalFaces`, `Spine.hh:146-172`. -/
def freeFace (M : Complex α) (s : Simplex α) : Option (List Nat) :=
  s.faces.find? fun f => !(M.any fun t =>
    (f.length - 1) + 1 == Complex.dim t && t.vertices != s.vertices && intersect f t.vertices == f)

/-- `dumb::principalFaces(K)`, `Spine.hh:116-190`. -/
def principalFaces (L : Complex α) : List (List Nat × List Nat) :=
  let admissible := L.filterMap fun s =>
    if Complex.dim s = 0 then none else (freeFace L s).map fun f => (s.vertices, f)
  admissible.filter fun p => !(L.any fun s => s.faces.contains p.1)

/-- The main loop of `dumb::spine`, `Spine.hh:211-220`; `none` if the bound on the number of rounds is exceeded. -/
def dumbLoop (pick : Nat → Nat) : Nat → Complex α → Option (Complex α)
  | 0, _ => none
  | n + 1, L =>
    let admissible := principalFaces L
    match admissible[pick n % admissible.length]? with
    | none => some L
    | some (s, t) => dumbLoop pick n ((L.removeOnly s).removeOnly t)

/-- `dumb::spine(K)`, `Spine.hh:206-223`. -/
def dumbSpine (pick : Nat → Nat) (K : Complex α) : Option (Complex α) := dumbLoop pick (K.length + 1) K

/-! ### The implementation with a map of cofaces -/

/-- `CofaceMap`, `Spine.hh:239`: an unordered map to unordered sets. -/
abbrev CofaceMap := List Nat → Option (List (List Nat))

/-- `cofaces[s] = {}` unless present, `Spine.hh:252-253`. -/
def CofaceMap.touch (m : CofaceMap) (s : List Nat) : CofaceMap :=
  fun x => if x = s then some ((m s).getD []) else m x

/-- `cofaces[f].insert(s)`, `Spine.hh:256`. -/
def CofaceMap.add (m : CofaceMap) (f s : List Nat) : CofaceMap :=
  fun x => if x = f then some (((m f).getD []).insert s) else m x

/-- `buildCofaceMap(K)`, `Spine.hh:241-260`. -/
def buildCofaceMap (K : Complex α) : CofaceMap :=
  K.foldl (fun m s => s.faces.foldl (fun m f => m.add f s.vertices) (m.touch s.vertices)) fun _ => none

/-- The loop of `getFreeFace`, `Spine.hh:288-295`; `none` is the exception of `at`. -/
def freeFaceLoop (m : CofaceMap) (s : List Nat) : List (List Nat) → Option (Option (List Nat))
  | [] => some none
  | f :: fs =>
    match m f with
    | none => none
    | some l => if l.length = 1 ∧ s ∈ l then some (some f) else freeFaceLoop m s fs

/-- The faces of a simplex given by its vertices, `Simplex.hh:189-202`. -/
def facesOf (s : List Nat) : List (List Nat) := Simplex.faces (⟨s, ()⟩ : Simplex Unit)

/-- `getFreeFace(cofaces, s)`, `Spine.hh:281-296`, with `isPrincipal`, `Spine.hh:268-271`; the inner `none` is the empty
simplex, the outer one the exception of `at`. -/
def getFreeFace (m : CofaceMap) (s : List Nat) : Option (Option (List Nat)) :=
  match m s with
  | none => none
  | some l => if l.isEmpty then freeFaceLoop m s (facesOf s) else some none

/-- `admissible.insert( std::make_pair( s, face ) )`, `Spine.hh:315`, `379`, `393`: no effect for a key that is present already. -/
def insertPair (a : List (List Nat × List Nat)) (s f : List Nat) : List (List Nat × List Nat) :=
  if a.any fun p => p.1 == s then a else a ++ [(s, f)]

/-- The body of the loops adding admissible simplices, `Spine.hh:313-315`, `377-379`, `391-393`. -/
def addAdmissible (m : CofaceMap) (a : List (List Nat × List Nat)) (s : List Nat) :
    Option (List (List Nat × List Nat)) :=
  match getFreeFace m s with
  | none => none
  | some none => some a
  | some (some f) => some (insertPair a s f)

/-- `getPrincipalFaces(cofaces, K)`, `Spine.hh:304-319`. -/
def getPrincipalFaces (m : CofaceMap) (K : Complex α) : Option (List (List Nat × List Nat)) :=
  (K.map (·.vertices)).foldlM (addAdmissible m) []

/-- The function `removeSimplices`, `Spine.hh:349-353`; `none` is the exception of `at`. -/
def eraseCofaces (s t : List Nat) (m : CofaceMap) (f : List Nat) : Option CofaceMap :=
  match m f with
  | none => none
  | some l => some fun x => if x = f then some ((l.erase s).erase t) else m x

/-- The update of the map of cofaces, `Spine.hh:355-361`. -/
def updateCofaces (m : CofaceMap) (s t : List Nat) : Option CofaceMap :=
  match (facesOf s).foldlM (eraseCofaces s t) m with
  | none => none
  | some m =>
    match (facesOf t).foldlM (eraseCofaces s t) m with
    | none => none
    | some m => some fun x => if x = s ∨ x = t then none else m x

/-- The new admissible simplices, `Spine.hh:370-402`. -/
def refill (m : CofaceMap) (L : Complex α) (a : List (List Nat × List Nat)) (s t : List Nat) :
    Option (List (List Nat × List Nat)) :=
  match ((facesOf s).filter fun f => f ≠ t).foldlM (addAdmissible m) a with
  | none => none
  | some a =>
    match (facesOf t).foldlM (addAdmissible m) a with
    | none => none
    | some a => if a.isEmpty then getPrincipalFaces m L else some a

/-- The main loop of `spine`, `Spine.hh:335-403`; `none` is an exception, or the bound on the number of rounds is exceeded. -/
def loop (pick : Nat → Nat) : Nat → CofaceMap → List (List Nat × List Nat) → Complex α → Option (Complex α)
  | 0, _, _, _ => none
  | n + 1, m, a, L =>
    match a[pick n % a.length]? with
    | none => some L
    | some (s, t) =>
      let L := (L.removeOnly s).removeOnly t
      match updateCofaces m s t with
      | none => none
      | some m =>
        match refill m L (a.filter fun p => p.1 ≠ s) s t with
        | none => none
        | some a => loop pick n m a L

/-- `spine(K)`, `Spine.hh:329-406`. -/
def spine (pick : Nat → Nat) (K : Complex α) : Option (Complex α) :=
  let m := buildCofaceMap K
  match getPrincipalFaces m K with
  | none => none
  | some a => loop pick (K.length + 1) m a K

end Spine

end Aleph
