import Verif.Props.Example
import Verif.Props.SweepProps
/-!
# The tests of the repository, replayed on the model

These are tests, not proofs of properties: the asserted outputs of the unit tests, of the
documentation, and the files in `test_files`, which were written by the real program, are compared with
what the model computes and with the costs that the specification assigns. A transcription error in
the model or a wrong cost function in the specification would show here.
-/

namespace Verif.Validation

open Spec Search

section space -- scheduler/space.rs:268-341

def gn : List (Nat × Nat) := [(8, 1), (8, 5), (1, 3), (3, 5)]
def gm : List (Nat × Nat) := [(0, 1), (0, 2), (1, 3), (3, 2)]
def gnw : List (Nat × Nat) := [(8, 1), (8, 5), (8, 1), (1, 3), (3, 5), (5, 5)]
def gmw : List (Nat × Nat) := [(0, 1), (0, 2), (0, 1), (1, 3), (3, 2), (2, 2)]
def mp : AMap Nat := [(8, 0), (5, 2)]

-- `creation`
example : GraphBuffer.new gn 4 (some mp) false = .ok [[1, 2], [0, 3], [0, 3], [1, 2]] ∧
    GraphBuffer.new gm 4 none false = .ok [[1, 2], [0, 3], [0, 3], [1, 2]] ∧
    GraphBuffer.new gnw 4 (some mp) true = .ok [[1, 2], [0, 3], [0, 3], [1, 2]] ∧
    GraphBuffer.new gmw 4 none true = .ok [[1, 2], [0, 3], [0, 3], [1, 2]] := by decide +kernel

example : Graph.new [[1, 2], [0, 3], [0, 3], [1, 2]] =
    ⟨[(.sleeping, [1, 2]), (.sleeping, [0, 3]), (.sleeping, [0, 3]), (.sleeping, [1, 2])], 0, 0⟩ := by
  decide +kernel

-- `updating`; the graph is made with five nodes there
def square : Graph := Graph.new [[1, 2], [0, 3], [0, 3], [1, 2], []]

example : square.focus .debug [2, 3] = .ok (.ok
      ⟨[(.inMemory, [1, 2]), (.inMemory, [0, 3]), (.measured, [0, 3]), (.measured, [1, 2]), (.sleeping, [])],
        2, 4⟩) := by decide +kernel

example : square.focusInplace .debug [2, 3] = .ok (
      ⟨[(.inMemory, [1, 2]), (.inMemory, [0, 3]), (.measured, [0, 3]), (.measured, [1, 2]), (.sleeping, [])],
        2, 4⟩, .ok ()) := by decide +kernel

example : (do
      let (g, _) ← square.focusInplace .debug [2]
      g.focusInplace .debug [3]) = .ok (
      ⟨[(.inMemory, [1, 2]), (.inMemory, [0, 3]), (.measured, [0, 3]), (.measured, [1, 2]), (.sleeping, [])],
        2, 3⟩, .ok ()) := by decide +kernel

end space

section time -- scheduler/time.rs:375-497

def ordering : OrderGraph := [[(0, [])], [(3, [0]), (1, [0])], [(2, [3])]]

/-- `get_all_paths` of the tests. -/
def getAllPaths (order : OrderGraph) (n fuel : Nat) : R (Option (List Schedule)) := do
  let g ← PathGenerator.fromDependencyGraph (T := Partitioner) order (dependencyBufferNew n) none
  let r ← Sweep.enumerate (PathGenerator.focusIter .debug) (fun _ => false) fuel (Sweep.new g) []
  pure (r.map (·.map (·.1)))

-- `simple_paths`
example : getAllPaths ordering 5 100 = .ok (some
    [[[0], [3, 1], [2]], [[0], [1], [3], [2]], [[0], [3], [1, 2]], [[0], [3], [2], [1]],
      [[0], [3], [1], [2]]]) := by decide +kernel

-- `max`, the ordered Bell numbers (C20 is the theorem)
example : (List.range 5).map (fun k =>
      (getAllPaths [(List.range (k + 1)).map fun i => (i, [])] 10 5000).map (Option.map List.length)) =
    [1, 3, 13, 75, 541].map fun k => .ok (some k) := by decide +kernel

-- `wrong_instructions`
def wrong : OrderGraph := [[(5, [])], [(2, [5]), (8, [5])], [(4, [8, 5])]]
def wrongMap : AMap Nat := [(5, 0), (8, 1), (2, 2), (4, 3)]

example : (match PathGenerator.fromDependencyGraph (T := Partitioner) wrong (dependencyBufferNew 5) none with
    | .ok _ => false
    | .error _ => true) = true := by decide +kernel

example : (do
      let t ← PathGenerator.fromDependencyGraph (T := Partitioner) wrong (dependencyBufferNew 5)
        (some wrongMap)
      let (t, a) ← t.focusInplace .debug [5]
      let (t, b) ← t.focusInplace .debug [1]
      let (t, c) ← t.focusInplace .debug [0]
      let (_, d) ← t.focusInplace .debug [0]
      pure [a, b, c, d]) =
    .ok [.error ⟨[5]⟩, .error ⟨[1]⟩, .ok (), .error ⟨[0]⟩] := by decide +kernel

end time

section docs -- xdocs/scheduler.md

-- "Finding the optimal paths"
example : run (Example.demo 100 []) Example.docs.graph Example.docs.order { doSearch := true } =
    .ok (some [⟨3, 3, [[0], [3, 1], [2]]⟩]) := Example.docs_run

end docs

/-! ## `test_files`

The files `fourier_*_paths.json` hold `[time, [space, steps]]`, as written by an earlier version of the
program for the graph and the ordering beside them. -/

/-- `fourier_4o_spacial.json`, `fourier_4o_dependency.json`. -/
def fourier4 : Problem :=
  ⟨[[],[14,15],[10,11,12,13],[4,5,6,7,8,9],[3],[3],[3],[3],[3],[3],[2],[2],[2],[2],[1],[1]],
   [[(8,[]),(5,[]),(7,[]),(4,[]),(6,[]),(3,[])],[(12,[7]),(10,[7]),(2,[7]),(11,[7]),(9,[8,5,7,4,6,3])],
    [(13,[12,10,2,11]),(1,[5,11]),(14,[5,11])],[(0,[3,2,1]),(15,[1,14])]]⟩

/-- `fourier_4o_paths.json`. -/
def fourier4Paths : List Path :=
  [⟨4,6,[[8,5,7,4,6],[12,10,2,11],[3,13,1,14],[9,0,15]]⟩,
   ⟨5,5,[[8,5,4,6],[7,3],[12,10,11,9],[2,1,14],[13,0,15]]⟩,
   ⟨6,4,[[8,4,6],[5,7,3],[10,11,9],[1,14],[12,2,15],[13,0]]⟩,
   ⟨9,3,[[5,6],[7,4],[8,3],[11,9],[12,10],[14],[1],[2,15],[13,0]]⟩,
   ⟨15,2,[[6],[4],[7],[5],[8],[3],[9],[11],[10],[12],[2],[13],[14],[1],[0,15]]⟩]

/-- `fourier_5o_spacial.json`, `fourier_5o_dependency.json`. -/
def fourier5 : Problem :=
  ⟨[[],[23,24],[19,20,21,22],[13,14,15,16,17,18],[5,6,7,8,9,10,11,12],[],[4],[4],[4],[4],[4],[4],[4],[3],[3],
    [3],[3],[3],[3],[2],[2],[2],[2],[1],[1]],
   [[(10,[]),(5,[]),(9,[]),(6,[]),(8,[]),(11,[]),(7,[]),(4,[])],
    [(16,[10]),(13,[10]),(14,[10]),(3,[10]),(15,[10]),(17,[10]),(12,[10,5,9,6,8,11,7,4])],
    [(2,[8,16]),(21,[8,16]),(20,[8,16]),(19,[8,16]),(18,[16,13,14,3,15,17])],
    [(23,[6,14,20]),(1,[6,14,20]),(22,[2,21,20,19])],[(24,[23,1]),(0,[4,3,2,1])]]⟩

/-- `fourier_5o_paths.json`. -/
def fourier5Paths : List Path :=
  [⟨5,8,[[6,8,11,5,9,10,7],[16,14,15,17,13,3],[4,2,19,20,21,18],[12,1,23,22],[0,24]]⟩,
   ⟨6,6,[[11,5,9,10,7],[6,8,4,13],[16,14,15,17,12],[2,19,20,21],[3,1,23,22],[18,0,24]]⟩,
   ⟨7,5,[[11,5,9,7],[6,8,10,4],[15,17,13,12],[16,14,3],[19,20,21,18],[2,1,23],[22,0,24]]⟩,
   ⟨10,4,[[11,9,7],[8,5,10],[17,13],[14,15],[16,3],[6,4,18],[20,21,12],[1,23],[2,19,24],[0,22]]⟩,
   ⟨14,3,[[5,7],[9,10],[8,11],[6,4],[13,12],[15,17],[16,14],[21],[3],[20,18],[2,19],[23,22],[1],[0,24]]⟩,
   ⟨24,2,[[7],[10],[9],[5],[11],[8],[6],[4],[12],[13],[17],[15],[14],[16],[3],[18],[21],[20],[19],[2],[22],
     [23],[1],[0,24]]⟩]

/-- `fourier_6o_spacial.json`, `fourier_6o_dependency.json`. -/
def fourier6 : Problem :=
  ⟨[[],[34,35],[30,31,32,33],[24,25,26,27,28,29],[16,17,18,19,20,21,22,23],[6,7,8,9,10,11,12,13,14,15],[5],[5],
    [5],[5],[5],[5],[5],[5],[5],[5],[4],[4],[4],[4],[4],[4],[4],[4],[3],[3],[3],[3],[3],[3],[2],[2],[2],[2],[1],[1]],
   [[(10,[]),(5,[]),(14,[]),(7,[]),(12,[]),(9,[]),(6,[]),(8,[]),(13,[]),(11,[])],
    [(22,[13]),(4,[13]),(21,[13]),(17,[13]),(20,[13]),(19,[13]),(16,[13]),(18,[13]),
      (15,[10,5,14,7,12,9,6,8,13,11])],
    [(24,[11,21]),(26,[11,21]),(28,[11,21]),(3,[11,21]),(25,[11,21]),(27,[11,21]),
      (23,[22,4,21,17,20,19,16,18])],
    [(2,[9,19,27]),(30,[9,19,27]),(32,[9,19,27]),(31,[9,19,27]),(29,[24,26,28,3,25,27])],
    [(33,[2,30,32,31]),(34,[7,17,25,31]),(1,[7,17,25,31])],[(35,[34,1]),(0,[5,4,3,2,1])]]⟩

-- orderings of the real tracker satisfy the hypothesis of the theorems
example : fourier4.WF ∧ fourier5.WF ∧ fourier6.WF :=
  ⟨Example.wf_of_check (by decide +kernel), Example.wf_of_check (by decide +kernel),
    Example.wf_of_check (by decide +kernel)⟩

-- what the real program wrote is valid, with the costs of the specification (C01, C02, C03)
example : ∀ p ∈ fourier4Paths, Example.checkValid fourier4 p.steps = true ∧ p.time = p.steps.length ∧
    p.space = fourier4.peak p.steps := by decide +kernel

example : ∀ p ∈ fourier5Paths, Example.checkValid fourier5 p.steps = true ∧ p.time = p.steps.length ∧
    p.space = fourier5.peak p.steps := by decide +kernel

-- a strict trade-off curve (C08) that starts with the depth of the ordering (C05, C10)
example : (fourier4Paths.Pairwise fun a b => a.time < b.time ∧ b.space < a.space) ∧
    (fourier5Paths.Pairwise fun a b => a.time < b.time ∧ b.space < a.space) := by decide +kernel

example : (run (Example.demo 100 []) fourier4.graph fourier4.order { doSearch := false }).map
      (Option.map (List.map Path.time)) = .ok (some [4]) ∧
    (run (Example.demo 100 []) fourier5.graph fourier5.order { doSearch := false }).map
      (Option.map (List.map Path.time)) = .ok (some [5]) := by decide +kernel

end Verif.Validation
