import Verif.Circuit.Conditional
import Verif.Dist.Discrete

/-!
# Serialization
-/

namespace PM

/-- A key of a JSON object.  `json.dumps` writes the integer keys of `hash_to_node_map` as decimal strings, which
`int(hash_)` (`nx/probabilistic_circuit.py:1047`) reads back; here they stay integers. -/
inductive JKey where
  | name (s : String)
  | hash (n : Nat)
  deriving DecidableEq

/-- JSON values as Python reads and writes them; floats may be infinite. -/
inductive Json where
  | str (s : String)
  | int (z : ℤ)
  | num (x : EReal)
  | arr (l : List Json)
  | obj (l : List (JKey × Json))

namespace Json

/-- `data[key]`. -/
def get (j : Json) (k : String) : Except PyErr Json := match j with
  | obj l => match l.find? fun p => p.1 = .name k with
    | some p => .ok p.2
    | none => .error .keyError
  | _ => .error .typeError

/-- A number. -/
def asNum : Json → Except PyErr EReal
  | num x => .ok x
  | _ => .error .typeError

/-- An integer. -/
def asInt : Json → Except PyErr ℤ
  | int z => .ok z
  | _ => .error .typeError

/-- A list. -/
def asArr : Json → Except PyErr (List Json)
  | arr l => .ok l
  | _ => .error .typeError

/-- The items of a dictionary. -/
def items : Json → Except PyErr (List (JKey × Json))
  | obj l => .ok l
  | _ => .error .typeError

/-- A string. -/
def asStr : Json → Except PyErr String
  | str s => .ok s
  | _ => .error .typeError

end Json

open Json

/-- `Bound.to_json` of `random_events`: the name. -/
def Bound.toJson : Bound → Json
  | .opn => .str "OPEN"
  | .closed => .str "CLOSED"

/-- `Bound[name]`. -/
def Bound.fromJson (j : Json) : Except PyErr Bound := do
  let s ← j.asStr
  if s = "OPEN" then .ok .opn else if s = "CLOSED" then .ok .closed else .error .keyError

/-- `SimpleInterval.to_json` of `random_events`. -/
def SimpleInterval.toJson (I : SimpleInterval) : Json :=
  .obj [(.name "lower", .num I.lower), (.name "upper", .num I.upper), (.name "left", I.left.toJson),
    (.name "right", I.right.toJson)]

/-- `SimpleInterval.from_json` of `random_events`. -/
def SimpleInterval.fromJson (j : Json) : Except PyErr SimpleInterval := do
  let lo ← (← j.get "lower").asNum
  let hi ← (← j.get "upper").asNum
  let l ← Bound.fromJson (← j.get "left")
  let r ← Bound.fromJson (← j.get "right")
  .ok ⟨lo, hi, l, r⟩

namespace Leaf

/-- `list(self.probabilities.items())` (`distributions/distributions.py:309-310`). -/
def probsJson (probs : List (ℤ × ℝ)) : Json := .arr (probs.map fun kp => .arr [.int kp.1, .num (kp.2 : ℝ)])

/-- One round of the loop in `DiscreteDistribution._from_json` (`distributions/distributions.py:316-317`). -/
noncomputable def setFromJson (d : List (ℤ × ℝ)) (j : Json) : Except PyErr (List (ℤ × ℝ)) := do
  match ← j.asArr with
  | [k, v] => do
    let k ← k.asInt
    let v ← v.asNum
    .ok (Dict.set d k v.toReal)
  | _ => .error .valueError

/-- `distribution.to_json()`: type name and variable (`distributions/distributions.py:61-62`), uniform
(`distributions/uniform.py:95-96`), Dirac (`distributions/distributions.py:593-594`), discrete (`:309-310`), Gaussian
(`distributions/gaussian.py:113-114`), truncated Gaussian (`:263-264`).  A variable is represented by its number. -/
noncomputable def toJson : Leaf → Json
  | uniform v lo hi l r => .obj [(.name "type", .str "UniformDistribution"), (.name "variable", .int v),
      (.name "interval", SimpleInterval.toJson ⟨lo, hi, l, r⟩)]
  | dirac v loc cap => .obj [(.name "type", .str "DiracDeltaDistribution"), (.name "variable", .int v),
      (.name "location", .num loc), (.name "density_cap", .num cap)]
  | symbolic v probs => .obj [(.name "type", .str "SymbolicDistribution"), (.name "variable", .int v),
      (.name "probabilities", probsJson probs)]
  | integer v probs => .obj [(.name "type", .str "IntegerDistribution"), (.name "variable", .int v),
      (.name "probabilities", probsJson probs)]
  | gaussian v μ σ => .obj [(.name "type", .str "GaussianDistribution"), (.name "variable", .int v),
      (.name "location", .num μ), (.name "scale", .num σ)]
  | truncGaussian v I μ σ => .obj [(.name "type", .str "TruncatedGaussianDistribution"), (.name "variable", .int v),
      (.name "location", .num μ), (.name "scale", .num σ), (.name "interval", I.toJson)]

/-- `SubclassJSONSerializer.from_json` (`random_events.utils`) dispatches on the type name; then the `_from_json` methods
(`distributions/uniform.py:98-102`, `distributions/distributions.py:312-318, 596-601`, `distributions/gaussian.py:116-119,
266-270`). -/
noncomputable def fromJson (j : Json) : Except PyErr Leaf := do
  let t ← (← j.get "type").asStr
  let v ← (← j.get "variable").asInt
  if t = "UniformDistribution" then do
    let I ← SimpleInterval.fromJson (← j.get "interval")
    .ok (uniform v.toNat I.lower.toReal I.upper.toReal I.left I.right)
  else if t = "DiracDeltaDistribution" then do
    let loc ← (← j.get "location").asNum
    let cap ← (← j.get "density_cap").asNum
    .ok (dirac v.toNat loc.toReal cap.toReal)
  else if t = "SymbolicDistribution" then do
    let probs ← (← (← j.get "probabilities").asArr).foldlM setFromJson []
    .ok (symbolic v.toNat probs)
  else if t = "IntegerDistribution" then do
    let probs ← (← (← j.get "probabilities").asArr).foldlM setFromJson []
    .ok (integer v.toNat probs)
  else if t = "GaussianDistribution" then do
    let μ ← (← j.get "location").asNum
    let σ ← (← j.get "scale").asNum
    .ok (gaussian v.toNat μ.toReal σ.toReal)
  else if t = "TruncatedGaussianDistribution" then do
    let I ← SimpleInterval.fromJson (← j.get "interval")
    let μ ← (← j.get "location").asNum
    let σ ← (← j.get "scale").asNum
    .ok (truncGaussian v.toNat I μ.toReal σ.toReal)
  else .error .valueError

end Leaf

/-- `unit.to_json()`: the type name; a leaf adds its distribution (`nx/probabilistic_circuit.py:293-296`). -/
noncomputable def Kind.toJson : Kind Leaf → Json
  | .leaf d => .obj [(.name "type", .str "LeafUnit"), (.name "distribution", d.toJson)]
  | .sum => .obj [(.name "type", .str "SumUnit")]
  | .prod => .obj [(.name "type", .str "ProductUnit")]

/-- `Unit.from_json` (`nx/probabilistic_circuit.py:298-301, 335-337`). -/
noncomputable def Kind.fromJson (j : Json) : Except PyErr (Kind Leaf) := do
  let t ← (← j.get "type").asStr
  if t = "LeafUnit" then do
    let d ← Leaf.fromJson (← j.get "distribution")
    .ok (.leaf d)
  else if t = "SumUnit" then .ok .sum
  else if t = "ProductUnit" then .ok .prod
  else .error .valueError

/-- A log weight as a number. -/
noncomputable def LogP.toJson : LogP → Json
  | .negInf => .num ⊥
  | .fin x => .num x

/-- A number as a log weight; `+inf` does not occur. -/
noncomputable def LogP.fromJson (j : Json) : Except PyErr LogP := do
  let x ← j.asNum
  .ok (if x = ⊥ then .negInf else .fin x.toReal)

namespace Graph

/-- `log_weighted_edges` (`nx/probabilistic_circuit.py:1066-1080`). -/
def logWeightedEdges {D : Type} (g : Graph D) : List (Node × Node × LogP) :=
  g.edgeView.filterMap fun e => e.weight.map fun w => (e.src, e.dst, w)

/-- `ProbabilisticCircuit.to_json` (`nx/probabilistic_circuit.py:1019-1034`); `unweighted_edges` lists all edges, see
`copyAt`.  `hash(node)` is the identity. -/
noncomputable def toJson (g : Circuit) : Json :=
  .obj [(.name "type", .str "ProbabilisticCircuit"),
    (.name "hash_to_node_map", .obj (g.nodes.map fun p => (.hash p.1, p.2.toJson))),
    (.name "unweighted_edges", .arr (g.edgeView.map fun e => .arr [.int e.src, .int e.dst])),
    (.name "log_weighted_edges", .arr (g.logWeightedEdges.map fun e => .arr [.int e.1, .int e.2.1, e.2.2.toJson]))]

/-- `hash_remap[hash]`. -/
def remapGet (remap : Dict ℤ Node) (h : ℤ) : Except PyErr Node := match remap.find? fun p => p.1 = h with
  | some p => .ok p.2
  | none => .error .keyError

/-- One round of the loop over the units (`nx/probabilistic_circuit.py:1045-1048`): a new unit, here with the identity
`base + number of units so far`. -/
noncomputable def loadNode (base : Nat) (s : Circuit × Dict ℤ Node) (p : JKey × Json) :
    Except PyErr (Circuit × Dict ℤ Node) := do
  let k ← Kind.fromJson p.2
  match p.1 with
  | .name _ => .error .valueError
  | .hash h => .ok (s.1.addNode (base + s.1.nodes.length) k, Dict.set s.2 h (base + s.1.nodes.length))

/-- One round of the loop over the unweighted edges (`nx/probabilistic_circuit.py:1050-1051`). -/
def loadEdge (remap : Dict ℤ Node) (g : Circuit) (j : Json) : Except PyErr Circuit := do
  match ← j.asArr with
  | [a, b] => do
    let u ← remapGet remap (← a.asInt)
    let v ← remapGet remap (← b.asInt)
    .ok (g.addEdge u v none)
  | _ => .error .valueError

/-- One round of the loop over the weighted edges (`nx/probabilistic_circuit.py:1053-1054`). -/
noncomputable def loadWeightedEdge (remap : Dict ℤ Node) (g : Circuit) (j : Json) : Except PyErr Circuit := do
  match ← j.asArr with
  | [a, b, w] => do
    let u ← remapGet remap (← a.asInt)
    let v ← remapGet remap (← b.asInt)
    let w ← LogP.fromJson w
    .ok (g.addEdge u v (some w))
  | _ => .error .valueError

/-- `ProbabilisticCircuit._from_json` (`nx/probabilistic_circuit.py:1040-1056`). -/
noncomputable def fromJson (base : Nat) (j : Json) : Except PyErr Circuit := do
  let nodes ← (← j.get "hash_to_node_map").items
  let (g, remap) ← nodes.foldlM (loadNode base) (⟨[], []⟩, [])
  let g ← (← (← j.get "unweighted_edges").asArr).foldlM (loadEdge remap) g
  (← (← j.get "log_weighted_edges").asArr).foldlM (loadWeightedEdge remap) g

end Graph
end PM
