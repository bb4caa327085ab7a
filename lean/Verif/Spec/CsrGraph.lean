import Verif.Model.CsrGraph

/-!
# Specification of `library/graph/csr_graph.hpp`

A graph is a finite family of bounded lists of edges, one per vertex.
-/

namespace CsrGraph.Spec
variable {W : Type}

/-- The arcs a list of edges stands for: one per directed edge, and two per undirected edge. -/
def arcs (undirected : Bool) (es : List (Nat × Nat × W)) : List (Nat × Nat × W) :=
  es.flatMap fun e => e :: if undirected then [(e.2.1, e.1, e.2.2)] else []

/-- The arcs that leave `i`, in the order of the input, each as its target and its weight. -/
def neighbours (undirected : Bool) (es : List (Nat × Nat × W)) (i : Nat) : List (Nat × W) :=
  ((arcs undirected es).filter fun e => e.1 = i).map fun e => e.2

/-- What is visible of a vertex: the list, its capacity, and whether the list has been accessed by `operator[]` since the graph was
last copied or moved. -/
structure Vertex (W : Type) where
  list : List (Nat × W)
  cap : Int
  fresh : Bool

/-- The visible state of a graph with the vertices `0, …, n - 1`. -/
structure State (W : Type) where
  n : Nat
  v : Nat → Vertex W

/-- The state after the list of the vertex `i` has been replaced. -/
def State.put (S : State W) (i : Nat) (l : List (Nat × W)) : State W :=
  ⟨S.n, fun j => if j = i then ⟨l, (S.v i).cap, true⟩ else S.v j⟩

/-- The state of a graph made from edges; `cap` is the argument that limits the capacities (empty for no limit). -/
def init (undirected : Bool) (n : Nat) (es : List (Nat × Nat × W)) (cap : Array Int) : State W :=
  ⟨n, fun i => ⟨neighbours undirected es i,
    min ((neighbours undirected es i).length : Int) (if cap.size = 0 then 2 ^ 31 - 1 else cap.getD i 0), true⟩⟩

/-- The calls a user may make. -/
def Pre (S : State W) : Op W → Prop
  | .size i | .capacity i | .list i | .rlist i | .clear i => i < S.n
  | .get i j | .at i j | .set i j _ => i < S.n ∧ j < (S.v i).list.length
  | .front i | .back i | .popBack i => i < S.n ∧ (S.v i).list ≠ []
  | .erase i first last => i < S.n ∧ first ≤ last ∧ last ≤ (S.v i).list.length
  | .pushBack i _ => i < S.n ∧ ((S.v i).list.length : Int) + 1 ≤ (S.v i).cap
  | .insertN i k num _ =>
      i < S.n ∧ k ≤ (S.v i).list.length ∧ ((S.v i).list.length : Int) + num ≤ (S.v i).cap ∧ (0 < num ∨ k = (S.v i).list.length)
  | .insertRange i k xs =>
      i < S.n ∧ k ≤ (S.v i).list.length ∧ ((S.v i).list.length : Int) + xs.size ≤ (S.v i).cap ∧
        (0 < xs.size ∨ k = (S.v i).list.length)
  | .emplace i k _ => i < S.n ∧ k ≤ (S.v i).list.length ∧ ((S.v i).list.length : Int) + 1 ≤ (S.v i).cap
  | .shrinkToFit => ∀ i < S.n, (S.v i).fresh = true
  | .moved => True

/-- The effect of a call on the visible state. -/
def next (S : State W) : Op W → State W
  | .size i | .capacity i | .list i | .rlist i | .get i _ | .at i _ | .front i | .back i => S.put i (S.v i).list
  | .set i j x => S.put i ((S.v i).list.set j x)
  | .erase i first last => S.put i ((S.v i).list.take first ++ (S.v i).list.drop last)
  | .popBack i => S.put i (S.v i).list.dropLast
  | .clear i => S.put i []
  | .pushBack i x => S.put i ((S.v i).list ++ [x])
  | .insertN i k num x => S.put i ((S.v i).list.take k ++ List.replicate num x ++ (S.v i).list.drop k)
  | .insertRange i k xs => S.put i ((S.v i).list.take k ++ xs.toList ++ (S.v i).list.drop k)
  | .emplace i k x => S.put i ((S.v i).list.take k ++ [x] ++ (S.v i).list.drop k)
  | .shrinkToFit => ⟨S.n, fun i => ⟨(S.v i).list, (S.v i).list.length, (S.v i).fresh⟩⟩
  | .moved => ⟨S.n, fun i => ⟨(S.v i).list, (S.v i).cap, false⟩⟩

/-- The result of a call. -/
def Ans (S : State W) : Op W → Out W → Prop
  | .size i, o => o = .num (S.v i).list.length
  | .capacity i, o => o = .num (S.v i).cap
  | .list i, o => o = .list (S.v i).list
  | .rlist i, o => o = .list (S.v i).list.reverse
  | .get i j, o | .at i j, o => ∃ x, (S.v i).list[j]? = some x ∧ o = .edge x
  | .front i, o => ∃ x, (S.v i).list.head? = some x ∧ o = .edge x
  | .back i, o => ∃ x, (S.v i).list.getLast? = some x ∧ o = .edge x
  | _, o => o = .unit

/-- Every sequence of permitted calls on the graph `g` succeeds and gives the results of the lists in the state `S`. -/
def Behaves [Inhabited W] (g : Graph W) (S : State W) : Prop :=
  ∀ ops, Cxx.ValidOps Pre next S ops → Cxx.Tot (Cxx.runOps step g ops) fun r => Cxx.TraceOk next Ans S ops r.2

/-- The state of the graph with all arcs reversed: into `k` there are the arcs `(j, k)`, by `j` and then by their place in the list of `j`. -/
def reverse (S : State W) (cap : Array Int) : State W :=
  let l := fun k => (List.range S.n).flatMap fun j => ((S.v j).list.filter fun e => e.1 = k).map fun e => (j, e.2)
  ⟨S.n, fun k => ⟨l k, min ((l k).length : Int) (if cap.size = 0 then 2 ^ 31 - 1 else cap.getD k 0), true⟩⟩

/-- The state in which all lists have been accessed. -/
def accessed (S : State W) : State W := ⟨S.n, fun i => ⟨(S.v i).list, (S.v i).cap, true⟩⟩

/-- The state of a graph made from its adjacency lists. -/
def ofLists (g : Array (List (Nat × W))) : State W :=
  ⟨g.size, fun i => ⟨g.getD i [], min ((g.getD i []).length : Int) (2 ^ 31 - 1), true⟩⟩

end CsrGraph.Spec
