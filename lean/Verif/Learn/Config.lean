import Verif.Learn.Jpt
import Mathlib.Data.String.Basic
import Mathlib.Data.List.Sort
import Mathlib.Data.List.Dedup

/-!
# The parameters of joint probability trees

`learning/jpt/jpt.py:79-188, 293-328, 367-415` and the variables of `learning/jpt/variables.py`.

Floats are reals, `none` is `nan`.  Variables are compared as a whole; the code (`random_events`) compares names and domains, which
is the same for variables with different names.
-/

namespace PM.Learn.Jpt

open Classical

/-- The class of a variable with its parameters: `Continuous`, `ScaledContinuous`, `Integer` (`learning/jpt/variables.py:71-177`) or
`Symbolic`, whose domain lists the names and the values of its elements. -/
inductive TreeKind where
  | continuous (mean std : Option ℝ) (distance improvement : ℝ) (samples : ℤ)
  | scaled (mean std : Option ℝ) (distance improvement : ℝ) (samples : ℤ)
  | integer (mean std : Option ℝ)
  | symbolic (domain : List (String × ℤ))

/-- A variable of a `JPT`. -/
structure TreeVar where
  name : String
  kind : TreeKind

/-- `isinstance(variable, (Continuous, Integer))` (`learning/jpt/jpt.py:147, 151, 155`). -/
def TreeVar.numeric (v : TreeVar) : Bool :=
  match v.kind with
  | .symbolic _ => false
  | _ => true

/-- `isinstance(variable, Symbolic)` (`learning/jpt/jpt.py:159, 163, 167`). -/
def TreeVar.isSymbolic (v : TreeVar) : Bool :=
  match v.kind with
  | .symbolic _ => true
  | _ => false

/-- `tuple(sorted(l))`; variables are ordered by their names. -/
def sortVars (l : List TreeVar) : List TreeVar := l.mergeSort fun v w => decide (v.name ≤ w.name)

/-- `set(l)`; the order of the elements is lost when the result is sorted. -/
noncomputable def asSet (l : List TreeVar) : List TreeVar := l.dedup

/-- `set_targets_and_features` (`learning/jpt/jpt.py:98-133`). -/
noncomputable def setTargetsAndFeatures (vars : List TreeVar) : Option (List TreeVar) → Option (List TreeVar) →
    List TreeVar × List TreeVar
  | none, none => (vars, vars)
  | none, some features => (sortVars ((asSet vars).filter (· ∉ asSet features)), sortVars features)
  | some targets, none => (sortVars (asSet targets), sortVars ((asSet vars).filter (· ∉ asSet targets)))
  | some targets, some features => (sortVars (asSet targets), sortVars (asSet features))

/-- A `VariableMap` from variables to lists of variables: its items, sorted by the keys. -/
abbrev Dependencies := List (TreeVar × List TreeVar)

/-- `VariableMap(dictionary)`: later entries overwrite earlier ones with the same key. -/
noncomputable def variableMap (items : List (TreeVar × List TreeVar)) : Dependencies :=
  (items.foldl (fun d kv => Dict.set d kv.1 kv.2) []).mergeSort fun a b => decide (a.1.name ≤ b.1.name)

/-- The attributes of a `JPT` that are not part of the circuit and that are not made anew by `fit` (`learning/jpt/jpt.py:24-77`). -/
structure Config where
  vars : List TreeVar
  targets : List TreeVar
  features : List TreeVar
  minSamplesLeaf : ℝ
  minImprovement : ℝ
  maxLeaves : EReal
  maxDepth : EReal
  dependencies : Dependencies
  totalSamples : ℕ
  keepSampleIndices : Bool

/-- The arguments of `JPT.__init__` (`learning/jpt/jpt.py:79-82`). -/
structure InitArgs where
  vars : List TreeVar
  targets : Option (List TreeVar) := none
  features : Option (List TreeVar) := none
  minSamplesLeaf : ℝ := 1
  minImprovement : ℝ := 0
  maxLeaves : EReal := ⊤
  maxDepth : EReal := ⊤
  dependencies : Option Dependencies := none

/-- `JPT.__init__` (`learning/jpt/jpt.py:83-96`); `total_samples` and `keep_sample_indices` are the defaults of the class
(`:59, 71`). -/
noncomputable def Config.init (a : InitArgs) : Config :=
  let vars := sortVars a.vars
  let tf := setTargetsAndFeatures vars a.targets a.features
  { vars := vars
    targets := tf.1
    features := tf.2
    minSamplesLeaf := a.minSamplesLeaf
    minImprovement := a.minImprovement
    maxLeaves := a.maxLeaves
    maxDepth := a.maxDepth
    dependencies := match a.dependencies with
      | none => variableMap (tf.2.map fun v => (v, tf.1))
      | some d => d
    totalSamples := 1
    keepSampleIndices := false }

/-- `min_samples_leaf` (`learning/jpt/jpt.py:135-143`). -/
noncomputable def Config.minSamples (c : Config) : ℝ :=
  if c.minSamplesLeaf < 1 then (⌈c.minSamplesLeaf * c.totalSamples⌉ : ℤ) else c.minSamplesLeaf

/-- `empty_copy` (`learning/jpt/jpt.py:375-383`). -/
noncomputable def Config.emptyCopy (c : Config) : Config :=
  .init { vars := c.vars
          targets := some c.targets
          features := some c.features
          minSamplesLeaf := c.minSamples
          minImprovement := c.minImprovement
          maxDepth := c.maxDepth
          dependencies := some c.dependencies }

/-! ### JSON -/

/-- The value of the key `type`, the name of the class. -/
inductive TypeName where
  | continuous | scaledContinuous | integer | symbolic

/-- The JSON dictionary of a variable; keys that are missing are `none`. -/
structure VarJson where
  type : TypeName
  name : String
  mean : Option (Option ℝ) := none
  std : Option (Option ℝ) := none
  distance : Option ℝ := none
  improvement : Option ℝ := none
  samples : Option ℤ := none
  domain : Option (List (String × ℤ)) := none

/-- `data[key]`. -/
def field {α : Type} : Option α → Except PyErr α
  | some x => .ok x
  | none => .error .keyError

/-- `Variable.to_json` (`learning/jpt/variables.py:87-91, 144-151`; for `Symbolic` variables, of `random_events`). -/
def TreeVar.toJson (v : TreeVar) : VarJson :=
  match v.kind with
  | .continuous mean std distance improvement samples =>
    { type := .continuous, name := v.name, mean := some mean, std := some std, distance := some distance,
      improvement := some improvement, samples := some samples }
  | .scaled mean std distance improvement samples =>
    { type := .scaledContinuous, name := v.name, mean := some mean, std := some std, distance := some distance,
      improvement := some improvement, samples := some samples }
  | .integer mean std => { type := .integer, name := v.name, mean := some mean, std := some std }
  | .symbolic domain => { type := .symbolic, name := v.name, domain := some domain }

/-- `Variable.from_json` (`learning/jpt/variables.py:93-95, 153-157`). -/
def TreeVar.fromJson (j : VarJson) : Except PyErr TreeVar :=
  match j.type with
  | .continuous => do
    .ok ⟨j.name, .continuous (← field j.mean) (← field j.std) (← field j.distance) (← field j.improvement) (← field j.samples)⟩
  | .scaledContinuous => do
    .ok ⟨j.name, .scaled (← field j.mean) (← field j.std) (← field j.distance) (← field j.improvement) (← field j.samples)⟩
  | .integer => do .ok ⟨j.name, .integer (← field j.mean) (← field j.std)⟩
  | .symbolic => do .ok ⟨j.name, .symbolic (← field j.domain)⟩

/-- What `to_json` adds to the JSON of the circuit (`learning/jpt/jpt.py:385-396`). -/
structure TreeJson where
  vars : List VarJson
  targets : List String
  features : List String
  minSamplesLeaf : ℝ
  minImprovement : ℝ
  maxLeaves : EReal
  maxDepth : EReal
  dependencies : Dict String (List String)
  totalSamples : ℕ

/-- `_variable_dependencies_to_json` (`learning/jpt/jpt.py:367-373`), a dictionary comprehension. -/
noncomputable def dependenciesToJson (d : Dependencies) : Dict String (List String) :=
  d.foldl (fun acc kv => Dict.set acc kv.1.name (kv.2.map TreeVar.name)) []

/-- `to_json` (`learning/jpt/jpt.py:385-396`). -/
noncomputable def Config.toJson (c : Config) : TreeJson :=
  { vars := c.vars.map TreeVar.toJson
    targets := c.targets.map TreeVar.name
    features := c.features.map TreeVar.name
    minSamplesLeaf := c.minSamplesLeaf
    minImprovement := c.minImprovement
    maxLeaves := c.maxLeaves
    maxDepth := c.maxDepth
    dependencies := dependenciesToJson c.dependencies
    totalSamples := c.totalSamples }

/-- `name_to_variable_map` (`learning/jpt/jpt.py:401`), a dictionary comprehension. -/
noncomputable def nameMap (vars : List TreeVar) : Dict String TreeVar := vars.foldl (fun d v => Dict.set d v.name v) []

/-- `name_to_variable_map[name]`. -/
noncomputable def byName (vars : List TreeVar) (name : String) : Except PyErr TreeVar :=
  field ((nameMap vars).lookup name)

/-- `parameters_from_json` (`learning/jpt/jpt.py:398-415`). -/
noncomputable def Config.fromJson (j : TreeJson) : Except PyErr Config := do
  let vars ← j.vars.mapM TreeVar.fromJson
  let targets ← j.targets.mapM (byName vars)
  let features ← j.features.mapM (byName vars)
  let items ← j.dependencies.mapM fun kv => do
    let v ← byName vars kv.1
    let deps ← kv.2.mapM (byName vars)
    .ok (v, deps)
  .ok { Config.init { vars := vars, targets := some targets, features := some features, minSamplesLeaf := j.minSamplesLeaf,
                      minImprovement := j.minImprovement, maxLeaves := j.maxLeaves, maxDepth := j.maxDepth,
                      dependencies := some (variableMap items) } with
        totalSamples := j.totalSamples }

/-! ### The impurity -/

/-- The arguments of the external `Impurity` (`learning/jpt/jpt.py:326-328`). -/
structure ImpurityArgs where
  minSamples : ℝ
  numericVars : List ℕ
  symbolicVars : List ℕ
  invert : List ℕ
  symbolicTotal : ℕ
  numericTotal : ℕ
  numericFeatures : List ℕ
  symbolicFeatures : List ℕ
  symbols : List ℕ
  maxVariances : List (Option ℝ)
  dependencies : Dict ℕ (List ℕ)

/-- `[index for index, variable in enumerate(variables) if variable in group]` (`learning/jpt/jpt.py:297-316`). -/
noncomputable def indicesOf (vars group : List TreeVar) : List ℕ := (vars.zipIdx.filter fun vi => vi.1 ∈ group).map Prod.snd

/-- `len(variable.domain.simple_sets)`. -/
def TreeVar.size (v : TreeVar) : ℕ :=
  match v.kind with
  | .symbolic domain => domain.length
  | _ => 0

/-- `variable.std`. -/
def TreeVar.std (v : TreeVar) : Option ℝ :=
  match v.kind with
  | .continuous _ std _ _ _ => std
  | .scaled _ std _ _ _ => std
  | .integer _ std => std
  | .symbolic _ => none

/-- `tuple.index`. -/
noncomputable def indexIn (vars : List TreeVar) (v : TreeVar) : Except PyErr ℕ :=
  if v ∈ vars then .ok (vars.idxOf v) else .error .valueError

/-- `construct_impurity` (`learning/jpt/jpt.py:293-328`). -/
noncomputable def Config.constructImpurity (c : Config) : Except PyErr ImpurityArgs := do
  let deps ← c.dependencies.mapM fun kv => do
    let i ← indexIn c.vars kv.1
    let l ← kv.2.mapM (indexIn c.vars)
    .ok (i, l)
  .ok { minSamples := c.minSamples
        numericVars := indicesOf c.vars (c.targets.filter TreeVar.numeric)
        symbolicVars := indicesOf c.vars (c.targets.filter TreeVar.isSymbolic)
        invert := (c.targets.filter TreeVar.isSymbolic).map fun _ => 0
        symbolicTotal := (c.vars.filter TreeVar.isSymbolic).length
        numericTotal := (c.vars.filter TreeVar.numeric).length
        numericFeatures := indicesOf c.vars (c.features.filter TreeVar.numeric)
        symbolicFeatures := indicesOf c.vars (c.features.filter TreeVar.isSymbolic)
        symbols := (c.vars.filter TreeVar.isSymbolic).map TreeVar.size
        maxVariances := (c.vars.filter TreeVar.numeric).map fun v => v.std.map (· ^ 2)
        dependencies := deps.foldl (fun d kv => Dict.set d kv.1 kv.2) [] }

end PM.Learn.Jpt
