import Verif.Learn.Jpt

/-!
# Specification: joint probability trees
-/

namespace PM.Spec

open Learn.Jpt

/-- The contract of the external impurity: it permutes the indices of the range it is asked about and nothing else, and a split with
a gain above the threshold leaves at least one sample and at least the minimal number of samples on both sides. -/
structure SplitContract (I : Impurity) (threshold minSamples : ℝ) : Prop where
  perm : ∀ calls indices start stop, start < stop → stop ≤ indices.length →
    ∃ seg, (I calls indices start stop).indices = indices.take start ++ seg ++ indices.drop stop ∧
      seg.Perm ((indices.drop start).take (stop - start))
  pos : ∀ calls indices start stop, start < stop → stop ≤ indices.length → threshold < (I calls indices start stop).gain →
    start + (I calls indices start stop).pos + 1 < stop ∧
    minSamples ≤ (((I calls indices start stop).pos + 1 : ℕ) : ℝ) ∧
    minSamples ≤ ((stop - (start + (I calls indices start stop).pos + 1) : ℕ) : ℝ)

/-- The variable of a column. -/
def columnVar : Column → Var
  | .continuous P => P.var
  | .symbolic v _ => v
  | .integer v => v
  | .other v => v

/-- The columns are supported and fit to the data. -/
def ColumnFits (data : List Row) (ci : Column × ℕ) : Prop :=
  match ci.1 with
  | .continuous P => 1 ≤ P.minSamples ∧ 0 ≤ P.minImprovement
  | .symbolic _ domain => (domain.map Prod.fst).Nodup ∧ (domain.map Prod.snd).Nodup ∧
      ∀ x ∈ data, x.int ci.2 ∈ domain.map Prod.fst
  | .integer _ => True
  | .other _ => False

/-- The arguments of a fit: data, columns of different variables that fit to the data, a positive cap. -/
structure TreeInput (S : Settings) (data : List Row) : Prop where
  nonempty : data ≠ []
  distinct : (S.columns.map columnVar).Nodup
  columns : ∀ ci ∈ S.columns.zipIdx, ColumnFits data ci
  cap : 0 < S.cap

/-- The samples of the leaves after a fit. -/
def leafSamples (st : State) : List (List ℕ) := st.samples.map fun s => (st.indices.drop s.1).take (s.2 - s.1)

/-- The value a point must have in the column `ci` to agree with the row `x`: the entry of the row, or the hash of the element. -/
def Agrees (p : Var → ℝ) (x : Row) (ci : Column × ℕ) : Prop :=
  match ci.1 with
  | .continuous P => p P.var = x.real ci.2
  | .symbolic v domain => ∃ e ∈ domain, e.1 = x.int ci.2 ∧ p v = e.2
  | .integer v => p v = x.int ci.2
  | .other _ => False

/-- The entry of an integer column is its own `hash`. -/
def HashesToItself (x : Row) (ci : Column × ℕ) : Prop :=
  match ci.1 with
  | .integer _ => x.int ci.2 ≠ -1 ∧ (x.int ci.2).natAbs < 2 ^ 61 - 1
  | _ => True

/-- The likelihood of a point under the distribution that is fitted to one column of some rows. -/
def ColumnLikelihood (cap : ℝ) (rows : List Row) (ci : Column × ℕ) (p : Var → ℝ) (q : ℝ) : Prop :=
  ∃ g r, columnCircuit cap rows ci.1 ci.2 = .ok (g, r) ∧ ∀ m, g.likelihood m p = .ok q

/-- The number of samples `min_samples_leaf` asks for: numbers from one on are counts, smaller ones are fractions of all samples. -/
noncomputable def requiredSamples (setting : ℝ) (total : ℕ) : ℝ :=
  if 1 ≤ setting then setting else (⌈setting * total⌉ : ℤ)

end PM.Spec
