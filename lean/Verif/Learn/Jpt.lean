import Verif.Learn.Nyga

/-!
# Joint probability trees

`learning/jpt/jpt.py`.  The data are the preprocessed ones (`preprocess_data`, `:169-188`, is modelled in `Learn/Preprocess`): the column of a
continuous variable has floats, that of a discrete variable integers.  The impurity of the `jpt` package, which chooses the splits, is
an arbitrary function.
-/

namespace PM.Learn.Jpt

open Classical Graph

/-- A row of the data; an entry is read as a float or as an integer, depending on the variable. -/
structure Row where
  real : ℕ → ℝ
  int : ℕ → ℤ

instance : Inhabited Row := ⟨⟨fun _ => 0, fun _ => 0⟩⟩

/-- A variable, as far as `create_leaf_node` looks at it: the subclass of `Continuous` with the parameters for its distribution,
`Symbolic` with the elements of the domain and their hashes, `Integer`, or none of them. -/
inductive Column where
  | continuous (P : Nyga.Params)
  | symbolic (v : Var) (domain : List (ℤ × ℤ))
  | integer (v : Var)
  | other (v : Var)

/-- The body of the loop of `create_leaf_node` (`learning/jpt/jpt.py:266-288`) for one column: the circuit of the distribution and
its root.  `cap` is the `density_cap` of Dirac distributions (`inf` in the code; the assignment of another cap is never reached, since
the root is a unit and not a `DiracDeltaDistribution`). -/
noncomputable def columnCircuit (cap : ℝ) (data : List Row) (c : Column) (i : ℕ) : Except PyErr (Circuit × Node) :=
  match c with
  | .continuous P => do
    let g ← Nyga.fit P cap (data.map fun x => x.real i) none
    let r ← g.root
    .ok (g, r)
  | .symbolic v domain => do
    let probs ← Leaf.fitSymbolic domain (data.map fun x => x.int i)
    .ok (newUnit 0 (.leaf (.symbolic v probs)), 0)
  | .integer v => .ok (newUnit 0 (.leaf (.integer v (Leaf.fitDiscrete (data.map fun x => x.int i)))), 0)
  | .other _ => .error .valueError

/-- `create_leaf_node` (`learning/jpt/jpt.py:256-291`). -/
noncomputable def createLeafNode (cap : ℝ) (columns : List Column) (data : List Row) : Except PyErr Circuit := do
  let parts ← columns.zipIdx.mapM fun ci => columnCircuit cap data ci.1 ci.2
  .ok ((newUnit 0 .prod).attachAll 0 (parts.map fun x => (x.1, x.2, none)))

/-- The parameters of a `JPT` (`learning/jpt/jpt.py:79-96`).  `max_leaves` is stored and not used. -/
structure Settings where
  columns : List Column
  minSamplesLeaf : ℝ
  minImprovement : ℝ
  maxDepth : EReal
  maxLeaves : EReal
  cap : ℝ

/-- `min_samples_leaf` (`learning/jpt/jpt.py:135-143`). -/
noncomputable def Settings.minSamples (S : Settings) (total : ℕ) : ℝ :=
  if S.minSamplesLeaf < 1 then (⌈S.minSamplesLeaf * total⌉ : ℤ) else S.minSamplesLeaf

/-- What `impurity.compute_best_split(start, end)` does: it returns the gain, sets `best_split_pos` and permutes the array of
indices in place. -/
structure Answer where
  gain : ℝ
  pos : ℕ
  indices : List ℕ

/-- The impurity object; it may keep a state, so its answers may depend on the number of earlier calls. -/
abbrev Impurity := (calls : ℕ) → (indices : List ℕ) → (start stop : ℕ) → Answer

/-- An entry of `c45queue` (`learning/jpt/jpt.py:206`). -/
structure Task where
  data : List Row
  start : ℕ
  stop : ℕ
  depth : ℕ

/-- What changes during a fit: `self.indices`, the state of the impurity, the circuit and the `sample_indices` of the leaves
(`learning/jpt/jpt.py:240-241`), which are views `self.indices[start:end]`. -/
structure State where
  indices : List ℕ
  calls : ℕ
  circuit : Circuit
  samples : List (ℕ × ℕ)

/-- `array[start:end]`. -/
def slice {α : Type} (l : List α) (start stop : ℕ) : List α := (l.drop start).take (stop - start)

/-- `data[indices]`. -/
def gather (data : List Row) (indices : List ℕ) : Except PyErr (List Row) :=
  indices.mapM fun i => match data[i]? with
    | some x => .ok x
    | none => .error .indexError

/-- `c45` (`learning/jpt/jpt.py:213-254`): the new state and what is appended to the queue. -/
noncomputable def c45 (S : Settings) (I : Impurity) (total : ℕ) (st : State) (t : Task) : Except PyErr (State × List Task) := do
  let number := t.stop - t.start
  let r ← st.circuit.root
  let asked : Option Answer :=
    if (t.depth : EReal) ≥ S.maxDepth ∨ (number : ℝ) < 2 * S.minSamples total then none
    else some (I st.calls st.indices t.start t.stop)
  let st : State := match asked with
    | none => st
    | some a => { st with indices := a.indices, calls := st.calls + 1 }
  let split : Option ℕ := match asked with
    | none => none
    | some a => if a.gain ≤ S.minImprovement then none else some a.pos
  match split with
  | none => do
    let rows ← gather t.data (slice st.indices t.start t.stop)
    let leaf ← createLeafNode S.cap S.columns rows
    if t.data.length = 0 then .error .zeroDivisionError
    else .ok ({ st with
      circuit := st.circuit.attach leaf r 0 (some (LogP.log ((number : ℝ) / t.data.length)))
      samples := st.samples ++ [(t.start, t.stop)] }, [])
  | some pos => .ok (st, [⟨t.data, t.start, t.start + pos + 1, t.depth + 1⟩, ⟨t.data, t.start + pos + 1, t.stop, t.depth + 1⟩])

/-- `while self.c45queue: self.c45(*self.c45queue.popleft())` (`learning/jpt/jpt.py:208-209`), at most `fuel` rounds: the queue
that is left and the result. -/
noncomputable def loop (S : Settings) (I : Impurity) (total : ℕ) : ℕ → State → List Task → List Task × Except PyErr State
  | _, st, [] => ([], .ok st)
  | 0, _, t :: q => (t :: q, .error .recursionError)
  | fuel + 1, st, t :: q =>
    match c45 S I total st t with
    | .error e => (q, .error e)
    | .ok (st', new) => loop S I total fuel st' (q ++ new)

/-- An upper bound for the number of rounds. -/
def rounds (q : List Task) : ℕ := (q.map fun t => 2 * (t.stop - t.start - 1) + 1).sum

/-- `fit` (`learning/jpt/jpt.py:190-211`) of a new `JPT`.  The queue is an attribute of the class (`:67`), so it may not be empty
before; it is returned as it is afterwards.  The number of rounds is bounded; that the bound is enough is part of C41. -/
noncomputable def fit (S : Settings) (I : Impurity) (data : List Row) (queue : List Task) : List Task × Except PyErr State :=
  let q := queue ++ [⟨data, 0, data.length, 0⟩]
  loop S I data.length (rounds q) ⟨List.range data.length, 0, newUnit 0 .sum, []⟩ q

/-- A sequence of fits of new trees; the queue after it. -/
noncomputable def history : List (Settings × Impurity × List Row) → List Task → List Task
  | [], q => q
  | (S, I, data) :: l, q => history l (fit S I data q).1

end PM.Learn.Jpt
