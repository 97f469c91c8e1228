import Verif.Dist.Leaf
import Verif.Circuit.Mount
import Verif.Circuit.Query

/-!
# Multinomial tables

`distributions/multinomial.py`.  An `np.ndarray` is a shape and a function of index tuples; only the tuples within the
shape matter.  Division by a zero total (`nan` in numpy) is `0` here; the theorems assume a positive total.
-/

namespace PM

/-- `np.ndarray` of floats. -/
structure NdArray where
  shape : List ℕ
  get : List ℕ → ℝ

/-- `itertools.product(*lists)`: the last position moves fastest. -/
def cartesian : List (List ℕ) → List (List ℕ)
  | [] => [[]]
  | l :: ls => l.flatMap fun a => (cartesian ls).map (a :: ·)

namespace NdArray

/-- All index tuples in C order: `itertools.product(*[range(n) for n in shape])`, the order of `np.nonzero`. -/
def cells (shape : List ℕ) : List (List ℕ) := cartesian (shape.map List.range)

/-- `a.sum()`, `np.sum(a)`. -/
noncomputable def total (a : NdArray) : ℝ := ((cells a.shape).map a.get).sum

/-- The positions of a tuple marked in `keep`. -/
def project {α : Type} (keep : List Bool) (i : List α) : List α := ((keep.zip i).filter Prod.fst).map Prod.snd

/-- `np.sum(a, axis=axis)` where `keep` marks the axes that are *not* in `axis`; `axis=()` returns `a`. -/
noncomputable def sumAxes (a : NdArray) (keep : List Bool) : NdArray where
  shape := project keep a.shape
  get j := (((cells a.shape).filter fun i => project keep i == j).map a.get).sum

/-- `a[np.ix_(*indices)].sum()`. -/
noncomputable def sumIx (a : NdArray) (indices : List (List ℕ)) : ℝ := ((cartesian indices).map a.get).sum

/-- `b = np.zeros_like(a); b[np.ix_(*indices)] = a[np.ix_(*indices)]`. -/
noncomputable def restrictIx (a : NdArray) (indices : List (List ℕ)) : NdArray where
  shape := a.shape
  get i := if i ∈ cartesian indices then a.get i else 0

/-- `a + b` for arrays of the same shape. -/
noncomputable def add (a b : NdArray) : NdArray := ⟨a.shape, fun i => a.get i + b.get i⟩

/-- `np.zeros_like(a)`. -/
def zerosLike (a : NdArray) : NdArray := ⟨a.shape, fun _ => 0⟩

/-- `a / x`. -/
noncomputable def divBy (a : NdArray) (x : ℝ) : NdArray := ⟨a.shape, fun i => a.get i / x⟩

/-- `a[tuple(row)]` for one full row of non-negative integers.  (Negative indices, which numpy counts from the end, and
rows that are shorter than the number of axes are not modelled.) -/
def at? (a : NdArray) (row : List ℕ) : Except PyErr ℝ :=
  if row ∈ cells a.shape then .ok (a.get row) else .error .indexError

end NdArray

/-- `random_events.variable.Symbolic`: its identity and the keys of `domain.hash_map`, which has one entry per element of
`domain.simple_sets`, in the same order. -/
structure SymVar where
  var : Var
  domain : List ℤ
  deriving DecidableEq

/-- `MultinomialDistribution` (`distributions/multinomial.py:16-31`). -/
structure Multinomial where
  vars : List SymVar
  probs : NdArray

namespace Multinomial

open NdArray

/-- `tuple(len(variable.domain.simple_sets) for variable in self.variables)` (`distributions/multinomial.py:37`). -/
def shapeOf (vs : List SymVar) : List ℕ := vs.map fun v => v.domain.length

/-- `MultinomialDistribution(variables, probabilities)` (`distributions/multinomial.py:33-46`). -/
def make (vs : List SymVar) (a : NdArray) : Except PyErr Multinomial :=
  if shapeOf vs = a.shape then .ok ⟨vs, a⟩ else .error .valueError

/-- `MultinomialDistribution(variables)`: uniform (`distributions/multinomial.py:39-41`). -/
noncomputable def makeUniform (vs : List SymVar) : Except PyErr Multinomial :=
  let ones : NdArray := ⟨shapeOf vs, fun _ => 1⟩
  make vs (ones.divBy ones.total)

/-- `normalize` (`distributions/multinomial.py:164-169`). -/
noncomputable def normalize (T : Multinomial) : Multinomial := ⟨T.vars, T.probs.divBy T.probs.total⟩

/-- `marginal` (`distributions/multinomial.py:59-69`).  The axes of the variables that are not requested are summed out;
what is left keeps the order of `self.variables` but is labelled with `variables` as given. -/
noncomputable def marginal (T : Multinomial) (vs : List SymVar) : Except PyErr Multinomial := do
  let r ← make vs (T.probs.sumAxes (T.vars.map fun v => decide (v ∈ vs)))
  return r.normalize

/-- `likelihood` of one row of indices (`distributions/multinomial.py:124-125`, `probabilistic_model.py:64-82`): the
exponential of the logarithm of the entry. -/
noncomputable def likelihood (T : Multinomial) (row : List ℕ) : Except PyErr ℝ := do
  let p ← T.probs.at? row
  return (LogP.log p).exp

open Classical in
/-- `log_mode` (`distributions/multinomial.py:71-87`).  The union of the singleton events is given as a list of simple
events.  `np.max` of an empty array raises `ValueError`. -/
noncomputable def logMode (T : Multinomial) : Except PyErr (List SimpleEvent × LogP) :=
  match (cells T.probs.shape).map T.probs.get with
  | [] => .error .valueError
  | p :: ps =>
    let m := ps.foldl max p
    let best := (cells T.probs.shape).filter fun i => T.probs.get i = m
    .ok (best.map fun i => (T.vars.zip i).map fun vi => (vi.1.var, VSet.symbols [vi.1.domain.getD vi.2 0]), LogP.log m)

/-- `event[variable]` as a list of symbol hashes.  A value set of another kind is a `TypeError` here. -/
def symbolsOf (E : SimpleEvent) (v : Var) : Except PyErr (List ℤ) := do
  match ← E.get v with
  | .symbols S => return S
  | .interval _ => throw .typeError

/-- `list.index`. -/
def indexOf (l : List ℤ) (k : ℤ) : Except PyErr ℕ := if k ∈ l then .ok (l.idxOf k) else .error .valueError

/-- `indices_from_simple_event` (`distributions/multinomial.py:141-150`). -/
def indices (T : Multinomial) (E : SimpleEvent) : Except PyErr (List (List ℕ)) :=
  T.vars.mapM fun v => do
    let S ← symbolsOf E v.var
    S.mapM (indexOf v.domain)

/-- `probability_of_simple_event` (`distributions/multinomial.py:120-122`). -/
noncomputable def probSimple (T : Multinomial) (E : SimpleEvent) : Except PyErr ℝ := do
  let I ← T.indices E
  return T.probs.sumIx I

/-- `event.fill_missing_variables(self.variables)` for one simple event. -/
def fillMissing (T : Multinomial) (E : SimpleEvent) : SimpleEvent :=
  E ++ ((T.vars.filter fun v => !(E.any fun p => p.1 == v.var)).map fun v => (v.var, VSet.symbols v.domain))

/-- `probability` (`probabilistic_model.py:110-119`). -/
noncomputable def probability (T : Multinomial) (E : List SimpleEvent) : Except PyErr ℝ := do
  let ps ← (E.map T.fillMissing).mapM T.probSimple
  return ps.sum

open Classical in
/-- `log_conditional` (`distributions/multinomial.py:127-139`), `probabilities_from_simple_event` (`:152-162`). -/
noncomputable def logConditional (T : Multinomial) (E : List SimpleEvent) : Except PyErr (Option Multinomial × LogP) := do
  let a ← E.foldlM (fun a e => do return a.add (T.probs.restrictIx (← T.indices e))) T.probs.zerosLike
  if a.total = 0 then return (none, .negInf)
  let r ← make T.vars a
  return (some r.normalize, LogP.log a.total)

/-- `conditional` (`probabilistic_model.py:173-184`). -/
noncomputable def conditional (T : Multinomial) (E : List SimpleEvent) : Except PyErr (Option Multinomial × ℝ) := do
  let r ← T.logConditional (E.map T.fillMissing)
  return (r.1, r.2.exp)

/-- `np.unique(data, return_counts=True, axis=0)`: the distinct rows with their counts.  (numpy sorts the rows; the
order is not observable in `fit`.) -/
def uniqueRows (data : List (List ℕ)) : List (List ℕ × ℕ) := data.dedup.map fun row => (row, data.count row)

/-- `fit` (`distributions/multinomial.py:217-228`): a table of zeros, one write per distinct row, `normalize`.  Rows are
tuples of non-negative integers; a row outside the table raises `IndexError`. -/
noncomputable def fit (T : Multinomial) (data : List (List ℕ)) : Except PyErr Multinomial := do
  let uniques := uniqueRows data
  if uniques.all fun u => u.1 ∈ cells T.probs.shape then
    let a := uniques.foldl (fun f u => Function.update f u.1 (u.2 : ℝ)) T.probs.zerosLike.get
    return normalize ⟨T.vars, ⟨T.probs.shape, a⟩⟩
  else throw .indexError

/-- `hash(value)` of a non-negative index is the index. -/
def oneHot (v : SymVar) (value : ℕ) : Leaf := .symbolic v.var [((value : ℤ), 1)]

/-- The product unit of one state with its leaves (`distributions/multinomial.py:187-201`); the product gets the number
`base`, its leaves the following ones. -/
def stateProduct (vs : List SymVar) (base : Node) (row : List ℕ) : Circuit :=
  (Graph.newUnit base .prod).addAll base (((vs.zip row).zipIdx).map fun p =>
    (Graph.newUnit (base + 1 + p.2) (.leaf (oneHot p.1.1 p.1.2)), base + 1 + p.2, none))

/-- `as_probabilistic_circuit` (`distributions/multinomial.py:171-207`): the sum unit is number `0`.  Without variables
`self.likelihood(…)[0]` indexes a scalar, an `IndexError`. -/
noncomputable def asCircuit (T : Multinomial) : Except PyErr Circuit := do
  if T.vars = [] then throw .indexError
  let parts ← ((cells (shapeOf T.vars)).zipIdx).mapM fun p => do
    let base := 1 + p.2 * (T.vars.length + 1)
    let q ← T.likelihood p.1
    return (stateProduct T.vars base p.1, base, some (LogP.log q))
  return (Graph.newUnit 0 .sum).addAll 0 parts

end Multinomial
end PM
