import Verif.Circuit.Normalize
import Verif.Circuit.Query

/-!
# Sampling

`ProbabilisticCircuit.sample` with all random outcomes as parameters.  A unit's `result_of_current_query` is its list of requests
(first row, number of rows).
-/

namespace PM.Graph

/-- The outcomes of the random choices: `counts n k a` is what `np.random.multinomial(a, …)` returns for the `k`-th request at the sum unit
`n`, `order n k` the list of indices after `random.shuffle`, `value n k a i` the `i`-th row of `distribution.sample(a)` for the `k`-th
request at the leaf `n`. -/
structure Outcomes where
  counts : Node → ℕ → ℕ → List ℕ
  order : Node → ℕ → List ℕ
  value : Node → ℕ → ℕ → ℕ → ℝ

/-- `samples[row, index of var] = value`, executed by the unit `leaf`. -/
structure Write where
  row : ℕ
  var : Var
  leaf : Node
  value : ℝ

/-- The requests at all units. -/
abbrev Requests := Node → List (ℕ × ℕ)

/-- `subcircuit.result_of_current_query.append(request)` for all pairs. -/
def pushAll (Q : Requests) (P : List (Node × ℕ × ℕ)) : Requests := fun n => Q n ++ (P.filter fun p => p.1 == n).map Prod.snd

/-- The loop over the shuffled indices (`nx/probabilistic_circuit.py:437-441`); `at_` is `start_index + total`.  The result is the
list of appended requests. -/
def distribute (subs : List Node) (counts : List ℕ) : List ℕ → ℕ → Except PyErr (List (Node × ℕ × ℕ))
  | [], _ => .ok []
  | i :: is, at_ =>
    match subs[i]?, counts[i]? with
    | some c, some k => do
      let rest ← distribute subs counts is (at_ + k)
      .ok ((c, at_, k) :: rest)
    | _, _ => .error .indexError

/-- `np.random.multinomial` checks that the probabilities without the last one sum to at most `1 + 1e-12`. -/
noncomputable def pvalsOK (ws : List LogP) : Prop := (ws.dropLast.map LogP.exp).sum ≤ 1 + 10 ^ (-12 : ℤ)

/-- `SumUnit.sample` (`nx/probabilistic_circuit.py:422-441`): the requests it appends to its subcircuits.  (No unit is its own
subcircuit, so the own list does not change meanwhile.) -/
noncomputable def sumRequests (g : Graph Leaf) (draws : Outcomes) (n : Node) (reqs : List (ℕ × ℕ)) :
    Except PyErr (List (Node × ℕ × ℕ)) := do
  let ws ← g.logWeights n
  let Ps ← reqs.zipIdx.mapM fun q => open Classical in
    if pvalsOK ws then distribute (g.succ n) (draws.counts n q.2 q.1.2) (draws.order n q.2) q.1.1 else .error .valueError
  .ok Ps.flatten

/-- `ProductUnit.sample` (`nx/probabilistic_circuit.py:724-727`). -/
def prodRequests (g : Graph Leaf) (n : Node) (reqs : List (ℕ × ℕ)) : List (Node × ℕ × ℕ) :=
  reqs.flatMap fun q => (g.succ n).map fun c => (c, q)

/-- `LeafUnit.sample` (`nx/probabilistic_circuit.py:271-279`) with `rows` rows in the array: a slice beyond the array is shorter than the
samples, which is a `ValueError`. -/
def leafWrites (draws : Outcomes) (rows : ℕ) (n : Node) (v : Var) (reqs : List (ℕ × ℕ)) : Except PyErr (List Write) := do
  let Ws ← reqs.zipIdx.mapM fun q =>
    if q.1.1 + q.1.2 ≤ rows then
      .ok ((List.range q.1.2).map fun i => (⟨q.1.1 + i, v, n, draws.value n q.2 q.1.2 i⟩ : Write))
    else .error .valueError
  .ok Ws.flatten

/-- One unit of the pass. -/
noncomputable def sampleUnit (g : Graph Leaf) (draws : Outcomes) (rows : ℕ) (s : Requests × List Write) (n : Node) :
    Except PyErr (Requests × List Write) :=
  match g.kind? n with
  | none => .error .networkXError
  | some (.leaf d) => do
    let ws ← leafWrites draws rows n d.var (s.1 n)
    .ok (s.1, s.2 ++ ws)
  | some .sum => do
    let P ← g.sumRequests draws n (s.1 n)
    .ok (pushAll s.1 P, s.2)
  | some .prod => .ok (pushAll s.1 (g.prodRequests n (s.1 n)), s.2)

/-- `ProbabilisticCircuit.sample` (`nx/probabilistic_circuit.py:947-964`): the writes into the array of `amount` rows and one column
for every variable of the circuit, in the order of execution. -/
noncomputable def sample (g : Circuit) (draws : Outcomes) (amount : ℕ) : Except PyErr (List Write) := do
  let _ ← g.circuitVars
  let r ← g.root
  let s ← (g.topDown r).foldlM (g.sampleUnit draws amount) (pushAll (fun _ => []) [(r, 0, amount)], [])
  .ok s.2

/-- The returned array: what was written last, `none` for `nan`. -/
def cell (log : List Write) (row : ℕ) (v : Var) : Option ℝ :=
  ((log.filter fun w => w.row == row && w.var == v).getLast?).map Write.value

end PM.Graph
