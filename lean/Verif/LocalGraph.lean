import Verif.GraphIO

/-!
# Model of `stag::AdjacencyListLocalGraph` (`stag_lib/graph.cpp:646-820`)

The file is its sequence of bytes and a position of the stream is the suffix still to be read.
A call that never returns is `none`.  Every query starts with an absolute `seekg`, so the stream
carries no state between queries; the state of an object is its two caches.
-/

namespace Stag

section
variable {K : Type} [Field K]

/-- Result of `goto_next_content_line`: a content line with the given id starting the given
suffix, the end of the file (`-1`), an exception of `std::stoi`, or an endless loop. -/
inductive Goto where
  | found (id : Int) (s : Str)
  | atEnd
  | threw (e : Exn)
  | hang

/-- The `while (true)` loop after the first test (`stag_lib/graph.cpp:655-682`).  `current_loc`
is the start of the last line read, so it never equals the end of the file again; reading at the
end of the file yields empty lines for ever. -/
def scanContent (s : Str) : Goto :=
  if _h : s = [] then .hang
  else
    if (getline s).1 = [] then scanContent (getline s).2.1
    else
      match cutColon (getline s).1 with
      | some (a, _) =>
        match stoi a with
        | .ok id => .found id s
        | .throw e => .threw e
        | .ub => .hang
      | none => scanContent (getline s).2.1
termination_by s.length
decreasing_by all_goals exact getline_length s _h

/-- `is_.seekg(p)` and `goto_next_content_line()` (`stag_lib/graph.cpp:646-685`).  Discarding a
line at the end of the file sets `eofbit`, after which `tellg` fails and the loop never ends. -/
def gotoFrom (file : Str) (p : Nat) : Goto :=
  if p = 0 then if file = [] then .atEnd else scanContent file
  else if file.drop p = [] then .hang
  else if (getline (file.drop p)).2.1 = [] then .atEnd
  else scanContent (getline (file.drop p)).2.1

/-- The caches of the object (`stag_lib/graph.h:610-617`). -/
structure LocalState (K : Type) where
  loc : Nat → Option Int
  edges : Int → Option (List (IEdge K))

/-- A new object (`stag_lib/graph.cpp:687-700`). -/
def LocalState.init : LocalState K := ⟨fun _ => none, fun _ => none⟩

/-- `fileloc_to_node_id_[p] = id` (`stag_lib/graph.cpp:733`). -/
def setLoc (c : Nat → Option Int) (p : Nat) (id : Int) : Nat → Option Int :=
  fun q => if q = p then some id else c q

/-- The loop of `find_vertex` (`stag_lib/graph.cpp:709-743`).  Result: where the stream points if
the vertex was found (`[]` is the end of the file), and the location cache. -/
def findLoop (file : Str) (v : Int) (c : Nat → Option Int) (lo hi : Int) :
    Option (Outcome Str) × (Nat → Option Int) :=
  if _h : hi < lo then (some (.throw .runtimeError), c)
  else
    let m := (lo + hi) / 2
    let p := m.toNat
    match c p with
    | some id =>
      if id = v then
        match gotoFrom file p with
        | .found _ s => (some (.ok s), c)
        | .atEnd => (some (.ok []), c)
        | .threw e => (some (.throw e), c)
        | .hang => (none, c)
      else if id = -1 ∨ v < id then findLoop file v c lo (m - 1)
      else findLoop file v c (m + 1) hi
    | none =>
      match gotoFrom file p with
      | .found id s =>
        if id = v then (some (.ok s), setLoc c p id)
        else if id = -1 ∨ v < id then findLoop file v (setLoc c p id) lo (m - 1)
        else findLoop file v (setLoc c p id) (m + 1) hi
      | .atEnd =>
        if -1 = v then (some (.ok []), setLoc c p (-1))
        else findLoop file v (setLoc c p (-1)) lo (m - 1)
      | .threw e => (some (.throw e), c)
      | .hang => (none, c)
termination_by (hi - lo + 1).toNat
decreasing_by all_goals omega

/-- `find_vertex` (`stag_lib/graph.cpp:702-744`). -/
def findVertex (file : Str) (st : LocalState K) (v : Int) :
    Option (Outcome Str) × LocalState K :=
  let r := findLoop file v st.loc 0 file.length
  (r.1, ⟨r.2, st.edges⟩)

/-- `AdjacencyListLocalGraph::neighbors` (`stag_lib/graph.cpp:746-766`). -/
def localNeighbors (F : Fmt K) (file : Str) (st : LocalState K) (v : Int) :
    Option (Outcome (List (IEdge K))) × LocalState K :=
  match st.edges v with
  | some es => (some (.ok es), st)
  | none =>
    match findVertex file st v with
    | (none, st') => (none, st')
    | (some (.throw e), st') => (some (.throw e), st')
    | (some .ub, st') => (some .ub, st')
    | (some (.ok s), st') =>
      match parseAdjLine F (getline s).1 with
      | .ok es => (some (.ok es), ⟨st'.loc, fun u => if u = v then some es else st'.edges u⟩)
      | .throw e => (some (.throw e), st')
      | .ub => (some .ub, st')

/-- Apply a function to the result of a call that may not return. -/
def mapRes {α β : Type} (f : α → β) : Option (Outcome α) → Option (Outcome β)
  | some (.ok a) => some (.ok (f a))
  | some (.throw e) => some (.throw e)
  | some .ub => some .ub
  | none => none

/-- `neighbors_unweighted` (`stag_lib/graph.cpp:768-775`). -/
def localNeighborsUnweighted (F : Fmt K) (file : Str) (st : LocalState K) (v : Int) :
    Option (Outcome (List Int)) × LocalState K :=
  let r := localNeighbors F file st v
  (mapRes (fun es => es.map IEdge.v2) r.1, r.2)

/-- The sum of `degree` (`stag_lib/graph.cpp:778-785`). -/
def degSum (v : Int) (es : List (IEdge K)) : K :=
  es.foldl (fun d e => if e.v2 = v then d + 2 * e.w else d + e.w) 0

/-- `degree` (`stag_lib/graph.cpp:777-786`). -/
def localDegree (F : Fmt K) (file : Str) (st : LocalState K) (v : Int) :
    Option (Outcome K) × LocalState K :=
  let r := localNeighbors F file st v
  (mapRes (degSum v) r.1, r.2)

/-- `degree_unweighted` (`stag_lib/graph.cpp:788-791`). -/
def localDegreeUnweighted (F : Fmt K) (file : Str) (st : LocalState K) (v : Int) :
    Option (Outcome Nat) × LocalState K :=
  let r := localNeighbors F file st v
  (mapRes List.length r.1, r.2)

/-- `vertex_exists` (`stag_lib/graph.cpp:809-816`): only `runtime_error` is caught. -/
def localVertexExists (file : Str) (st : LocalState K) (v : Int) :
    Option (Outcome Bool) × LocalState K :=
  let r := findVertex file st v
  (match r.1 with
    | some (.ok _) => some (.ok true)
    | some (.throw .runtimeError) => some (.ok false)
    | some (.throw e) => some (.throw e)
    | some .ub => some .ub
    | none => none, r.2)

/-- The queries of the API; `degrees` and `degrees_unweighted`
(`stag_lib/graph.cpp:793-807`) are sequences of them. -/
inductive LocalQuery where
  | neighbors (v : Int)
  | neighborsUnweighted (v : Int)
  | degree (v : Int)
  | degreeUnweighted (v : Int)
  | vertexExists (v : Int)

/-- The effect of one query on the object. -/
def LocalQuery.run (F : Fmt K) (file : Str) (st : LocalState K) : LocalQuery → LocalState K
  | .neighbors v => (localNeighbors F file st v).2
  | .neighborsUnweighted v => (localNeighborsUnweighted F file st v).2
  | .degree v => (localDegree F file st v).2
  | .degreeUnweighted v => (localDegreeUnweighted F file st v).2
  | .vertexExists v => (localVertexExists file st v).2

/-- The object after a sequence of queries. -/
def afterQueries (F : Fmt K) (file : Str) (qs : List LocalQuery) : LocalState K :=
  qs.foldl (LocalQuery.run F file) LocalState.init

end
end Stag
