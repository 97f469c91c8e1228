import Verif.Jax.Layers
import Verif.Circuit.Json

/-!
# Serialization of layered (jax) circuits

`to_json` and `_from_json` of the layers and of the jax `ProbabilisticCircuit`.  Arrays become nested lists (`tolist`).
-/

namespace PM.Jax
open Json

/-- A list of numbers. -/
noncomputable def numsJson (l : List ℝ) : Json := .arr (l.map fun x => .num (x : ℝ))

/-- `jnp.array(list)` of a list of numbers. -/
noncomputable def numsFromJson (j : Json) : Except PyErr (List ℝ) := do
  let l ← j.asArr
  l.mapM fun x => do
    let y ← x.asNum
    .ok y.toReal

/-- A list of log probabilities. -/
noncomputable def logsJson (l : List LogP) : Json := .arr (l.map LogP.toJson)

/-- `jnp.array(list)` of a list of log probabilities. -/
noncomputable def logsFromJson (j : Json) : Except PyErr (List LogP) := do
  let l ← j.asArr
  l.mapM LogP.fromJson

/-- `[i, j]`. -/
def pairJson (p : ℕ × ℕ) : Json := .arr [.int p.1, .int p.2]

/-- A row of an array of indices. -/
def pairFromJson (j : Json) : Except PyErr (ℕ × ℕ) := do
  match ← j.asArr with
  | [a, b] => do
    let a ← a.asInt
    let b ← b.asInt
    .ok (a.toNat, b.toNat)
  | _ => .error .valueError

/-- The class of the layer that a node belongs to. -/
def InputNode.className : InputNode → String
  | .uniform .. => "UniformLayer"
  | .dirac .. => "DiracDeltaLayer"
  | .gaussian .. => "GaussianLayer"
  | .discrete .. => "DiscreteLayer"

/-- The parameters of the nodes of one input layer by attribute: `interval` (`jax/input_layer.py:78-81`), `location` and `density_cap`
(`:137-141`), `location`, `log_scale` (under the key `scale`) and `min_scale` (`jax/gaussian_layer.py:76-79`), `log_probabilities`
(`jax/discrete_layer.py:79-81`).  Nodes of another class do not occur in the layer. -/
noncomputable def inputFields (nodes : List InputNode) : InputNode → List (JKey × Json)
  | .uniform .. => [(.name "interval", .arr (nodes.filterMap fun f => match f with
      | .uniform lower upper => some (numsJson [lower, upper])
      | _ => none))]
  | .dirac .. => [(.name "location", numsJson (nodes.filterMap fun f => match f with
      | .dirac location _ => some location
      | _ => none)), (.name "density_cap", numsJson (nodes.filterMap fun f => match f with
      | .dirac _ cap => some cap
      | _ => none))]
  | .gaussian .. => [(.name "location", numsJson (nodes.filterMap fun f => match f with
      | .gaussian location _ _ => some location
      | _ => none)), (.name "scale", numsJson (nodes.filterMap fun f => match f with
      | .gaussian _ logScale _ => some logScale
      | _ => none)), (.name "min_scale", numsJson (nodes.filterMap fun f => match f with
      | .gaussian _ _ minScale => some minScale
      | _ => none))]
  | .discrete .. => [(.name "log_probabilities", .arr (nodes.filterMap fun f => match f with
      | .discrete logs => some (logsJson logs)
      | _ => none))]

/-- `to_json` of an input layer with at least one node (`jax/inner_layer.py:260-263` and `inputFields`). -/
noncomputable def inputJson (v : ℕ) : List InputNode → Json
  | [] => .obj [(.name "variable", .int v)]
  | f :: nodes => .obj ((.name "type", .str f.className) :: (.name "variable", .int v) :: inputFields (f :: nodes) f)

/-- One row of the array `interval`. -/
noncomputable def uniformFromJson (j : Json) : Except PyErr InputNode := do
  match ← numsFromJson j with
  | [lower, upper] => .ok (.uniform lower upper)
  | _ => .error .valueError

/-- One row of the array `log_probabilities`. -/
noncomputable def discreteFromJson (j : Json) : Except PyErr InputNode := do
  let logs ← logsFromJson j
  .ok (.discrete logs)

/-- `_from_json` of the input layers: `jax/uniform_layer.py:65-67`, `jax/input_layer.py:143-145`, `jax/gaussian_layer.py:81-84`,
`jax/discrete_layer.py:83-85`; the third positional argument of `GaussianLayer` is `log_scale` (`jax/gaussian_layer.py:27-31`). -/
noncomputable def inputFromJson (t : String) (j : Json) : Except PyErr Layer := do
  let v ← (← j.get "variable").asInt
  if t = "UniformLayer" then do
    let rows ← (← j.get "interval").asArr
    let nodes ← rows.mapM uniformFromJson
    .ok (.input v.toNat nodes)
  else if t = "DiracDeltaLayer" then do
    let location ← numsFromJson (← j.get "location")
    let cap ← numsFromJson (← j.get "density_cap")
    .ok (.input v.toNat ((location.zip cap).map fun p => .dirac p.1 p.2))
  else if t = "GaussianLayer" then do
    let location ← numsFromJson (← j.get "location")
    let scale ← numsFromJson (← j.get "scale")
    let minScale ← numsFromJson (← j.get "min_scale")
    .ok (.input v.toNat ((location.zip (scale.zip minScale)).map fun p => .gaussian p.1 p.2.1 p.2.2))
  else do
    let rows ← (← j.get "log_probabilities").asArr
    let nodes ← rows.mapM discreteFromJson
    .ok (.input v.toNat nodes)

/-- `(lw.data.tolist(), lw.indices.tolist(), lw.shape)` (`jax/inner_layer.py:368`). -/
noncomputable def Coo.toJson (w : Coo) : Json :=
  .arr [logsJson (w.entries.map fun e => e.2.2), .arr (w.entries.map fun e => pairJson (e.1, e.2.1)), pairJson (w.rows, w.cols)]

/-- `BCOO((jnp.array(lw[0]), jnp.array(lw[1])), shape=lw[2], …)` (`jax/inner_layer.py:374-375`). -/
noncomputable def Coo.fromJson (j : Json) : Except PyErr Coo := do
  match ← j.asArr with
  | [data, indices, shape] => do
    let data ← logsFromJson data
    let indices ← (← indices.asArr).mapM pairFromJson
    let shape ← pairFromJson shape
    .ok ⟨shape.1, shape.2, (indices.zip data).map fun p => (p.1.1, p.1.2, p.2)⟩
  | _ => .error .indexError

/-- The stored entries of the sparse matrix `edges`: (child layer, node, node of the child layer). -/
def edgeEntries (es : List (List (ℕ × ℕ))) : List (ℕ × ℕ × ℕ) := es.zipIdx.flatMap fun p => p.1.map fun e => (p.2, e.1, e.2)

/-- `(self.edges.data.tolist(), self.edges.indices.tolist(), self.edges.shape)` (`jax/inner_layer.py:621`). -/
def edgesJson (n : ℕ) (es : List (List (ℕ × ℕ))) : Json :=
  .arr [.arr ((edgeEntries es).map fun e => .int e.2.2), .arr ((edgeEntries es).map fun e => pairJson (e.1, e.2.1)),
    pairJson (es.length, n)]

/-- `BCOO((jnp.array(data["edges"][0]), jnp.array(data["edges"][1])), shape=data["edges"][2], …)` (`jax/inner_layer.py:627-628`), as number of
nodes and rows. -/
def edgesFromJson (j : Json) : Except PyErr (ℕ × List (List (ℕ × ℕ))) := do
  match ← j.asArr with
  | [data, indices, shape] => do
    let data ← (← data.asArr).mapM Json.asInt
    let indices ← (← indices.asArr).mapM pairFromJson
    let shape ← pairFromJson shape
    .ok (shape.2, (List.range shape.1).map fun i =>
      ((indices.zip data).filter fun p => p.1.1 == i).map fun p => (p.1.2, p.2.toNat))
  | _ => .error .indexError

/-- `jnp.asarray(lw)` of a nested list (`jax/inner_layer.py:509`). -/
noncomputable def denseFromJson (j : Json) : Except PyErr (List (List LogP)) := do
  let rows ← j.asArr
  rows.mapM logsFromJson

mutual
/-- `to_json` of the layers: `InnerLayer` (`jax/inner_layer.py:235-238`), `SparseSumLayer` (`:366-369`), `DenseSumLayer` (`:501-504`),
`ProductLayer` (`:619-622`).  The type is written as the bare class name. -/
noncomputable def Layer.toJson : Layer → Json
  | .input v nodes => inputJson v nodes
  | .sparseSum ws cs => .obj [(.name "type", .str "SparseSumLayer"), (.name "child_layers", .arr (layersJson cs)),
      (.name "log_weights", .arr (ws.map Coo.toJson))]
  | .denseSum ws cs => .obj [(.name "type", .str "DenseSumLayer"), (.name "child_layers", .arr (layersJson cs)),
      (.name "log_weights", .arr (ws.map fun w => .arr (w.map logsJson)))]
  | .product n es cs => .obj [(.name "type", .str "ProductLayer"), (.name "child_layers", .arr (layersJson cs)),
      (.name "edges", edgesJson n es)]
noncomputable def layersJson : List Layer → List Json
  | [] => []
  | c :: cs => c.toJson :: layersJson cs
end

/-- `data["child_layers"]`. -/
def childJsons (j : Json) : Except PyErr (List Json) := do (← j.get "child_layers").asArr

theorem sizeOf_childJsons {j : Json} {cs : List Json} (h : childJsons j = .ok cs) : sizeOf cs < sizeOf j := by
  cases j with
  | obj l =>
    simp only [childJsons, Json.get, bind, Except.bind] at h
    cases hf : l.find? (fun p => p.1 = .name "child_layers") with
    | none => rw [hf] at h; cases h
    | some p =>
      rw [hf] at h
      simp only at h
      have hm := List.mem_of_find?_eq_some hf
      have h1 := List.sizeOf_lt_of_mem hm
      cases hp : p.2 with
      | arr l' =>
        rw [hp] at h
        simp only [Json.asArr, Except.ok.injEq] at h
        subst h
        have h2 : sizeOf p.2 < sizeOf p := by cases p; simp
        have h3 : sizeOf l' < sizeOf p.2 := by rw [hp]; simp
        simp only [Json.obj.sizeOf_spec]
        omega
      | _ => rw [hp] at h; cases h
  | _ => cases h

/-- `_from_json` of the inner layers given the child layers: `SparseSumLayer` (`jax/inner_layer.py:371-376`), `DenseSumLayer`
(`:506-510`) and `ProductLayer` (`:624-629`). -/
noncomputable def innerFromJson (t : String) (j : Json) (cs : List Layer) : Except PyErr Layer := do
  if t = "SparseSumLayer" then do
    let ws ← (← (← j.get "log_weights").asArr).mapM Coo.fromJson
    .ok (.sparseSum ws cs)
  else if t = "DenseSumLayer" then do
    let ws ← (← (← j.get "log_weights").asArr).mapM denseFromJson
    .ok (.denseSum ws cs)
  else if t = "ProductLayer" then do
    let p ← edgesFromJson (← j.get "edges")
    .ok (.product p.1 p.2 cs)
  else .error .valueError

/-- The classes of input layers. -/
def isInputClass (t : String) : Bool := t = "UniformLayer" || t = "DiracDeltaLayer" || t = "GaussianLayer" || t = "DiscreteLayer"

mutual
/-- `Layer.from_json`: dispatch on the type (`SubclassJSONSerializer` of `random_events`), then `_from_json`. -/
noncomputable def Layer.fromJson (j : Json) : Except PyErr Layer := do
  let t ← (← j.get "type").asStr
  if isInputClass t then inputFromJson t j
  else match _h : childJsons j with
    | .error e => .error e
    | .ok js => do
      let cs ← layersFromJson js
      innerFromJson t j cs
termination_by sizeOf j
decreasing_by exact sizeOf_childJsons _h
/-- `[Layer.from_json(child_layer) for child_layer in data["child_layers"]]`. -/
noncomputable def layersFromJson : List Json → Except PyErr (List Layer)
  | [] => .ok []
  | j :: js => do
    let c ← Layer.fromJson j
    let cs ← layersFromJson js
    .ok (c :: cs)
termination_by l => sizeOf l
end

/-- A layered circuit: the variables in their order and the root layer (`jax/probabilistic_circuit.py:41-43`). -/
structure Model where
  vars : List ℕ
  root : Layer

/-- `ProbabilisticCircuit.to_json` (`jax/probabilistic_circuit.py:93-97`).  A variable is represented by its number. -/
noncomputable def Model.toJson (m : Model) : Json :=
  .obj [(.name "type", .str "ProbabilisticCircuit"), (.name "variables", .arr (m.vars.map fun v : ℕ => .int v)),
    (.name "root", m.root.toJson)]

/-- `ProbabilisticCircuit._from_json` (`jax/probabilistic_circuit.py:99-103`): the variables go through a `SortedSet`. -/
noncomputable def Model.fromJson (j : Json) : Except PyErr Model := do
  let vs ← (← (← j.get "variables").asArr).mapM Json.asInt
  let root ← Layer.fromJson (← j.get "root")
  .ok ⟨uniqueSorted (vs.map Int.toNat), root⟩

end PM.Jax
