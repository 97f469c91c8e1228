import Verif.Learn.Config

/-!
# Learning a tree with given parameters
-/

namespace PM.Learn.Jpt

open Classical

/-- How `create_leaf_node` (`learning/jpt/jpt.py:266-288`) sees a variable.  `ix` numbers the variables, `hash` gives the hashes of
the elements of a domain. -/
def TreeVar.column (ix : TreeVar → Var) (hash : ℤ → ℤ) (v : TreeVar) : Column :=
  match v.kind with
  | .continuous _ _ _ improvement samples => .continuous ⟨ix v, samples, improvement⟩
  | .scaled _ _ _ improvement samples => .continuous ⟨ix v, samples, improvement⟩
  | .integer _ _ => .integer (ix v)
  | .symbolic domain => .symbolic (ix v) (domain.map fun e => (e.2, hash e.2))

/-- The attributes of the tree that `c45` and `create_leaf_node` read. -/
def Config.settings (c : Config) (ix : TreeVar → Var) (hash : ℤ → ℤ) (cap : ℝ) : Settings :=
  ⟨c.vars.map (TreeVar.column ix hash), c.minSamplesLeaf, c.minImprovement, c.maxDepth, c.maxLeaves, cap⟩

/-- `fit` (`learning/jpt/jpt.py:190-211`) on preprocessed data: it sets `total_samples`, constructs the impurity and runs the queue.
`make` is the external class `Impurity`. -/
noncomputable def Config.fit (c : Config) (ix : TreeVar → Var) (hash : ℤ → ℤ) (cap : ℝ) (make : ImpurityArgs → Impurity)
    (data : List Row) (queue : List Task) : List Task × Except PyErr State :=
  match ({ c with totalSamples := data.length } : Config).constructImpurity with
  | .error e => (queue, .error e)
  | .ok args => Jpt.fit (c.settings ix hash cap) (make args) data queue

end PM.Learn.Jpt
