import Verif.Circuit.Sample
import Verif.Spec.Law
import Mathlib.MeasureTheory.Integral.Bochner.Basic

/-!
# Sampling with random numbers

The same function as in `Verif.Circuit.Sample`, now with ideal random number generators.  A random computation with result in `α` is
given by its expectation operator: it maps `f : α → ℝ` to the expected value of `f` of the result.
-/

namespace PM

/-- A random computation. -/
abbrev Rand (α : Type) := (α → ℝ) → ℝ

namespace Rand

variable {α β : Type}

/-- No randomness. -/
def pure (a : α) : Rand α := fun f => f a

/-- One computation after the other; an exception ends the computation. -/
def bindE (d : Rand (Except PyErr α)) (k : α → Rand (Except PyErr β)) : Rand (Except PyErr β) := fun f =>
  d fun res => match res with
    | .ok a => k a f
    | .error e => f (.error e)

/-- The index `i` with probability `ps[i]`. -/
noncomputable def categorical (ps : List ℝ) : Rand ℕ := fun f => (ps.zipIdx.map fun p => p.1 * f p.2).sum

/-- `np.random.multinomial(amount, ps)`: how often each index occurs in `amount` independent draws. -/
noncomputable def multinomial (ps : List ℝ) : ℕ → Rand (List ℕ)
  | 0 => pure (List.replicate ps.length 0)
  | a + 1 => fun f => multinomial ps a fun c => categorical ps fun i => f (c.modify i (· + 1))

/-- `random.shuffle(l)`: every permutation is equally likely. -/
noncomputable def shuffle (l : List ℕ) : Rand (List ℕ) := fun f => (l.permutations.map f).sum / l.permutations.length

/-- `amount` independent values with the law of the leaf. -/
noncomputable def leafValues (d : Leaf) : ℕ → Rand (List ℝ)
  | 0 => pure []
  | a + 1 => fun f => ∫ x, leafValues d a (fun xs => f (x :: xs)) ∂(Spec.leafLaw d)

end Rand

namespace Graph

/-- `SumUnit.sample` (`nx/probabilistic_circuit.py:422-441`).  (The list of indices is shuffled again for every request, starting with
the shuffled list; here it starts with the sorted list, which has the same law.) -/
noncomputable def sumRequestsR (g : Circuit) (n : Node) (ws : List LogP) :
    List (ℕ × ℕ) → Rand (Except PyErr (List (Node × ℕ × ℕ)))
  | [] => Rand.pure (.ok [])
  | q :: qs => open Classical in
    if pvalsOK ws then fun f =>
      Rand.multinomial (ws.map LogP.exp) q.2 fun counts =>
        Rand.shuffle (List.range (g.succ n).length) fun order =>
          Rand.bindE (Rand.pure (distribute (g.succ n) counts order q.1)) (fun P =>
            Rand.bindE (sumRequestsR g n ws qs) fun Ps => Rand.pure (.ok (P ++ Ps))) f
    else Rand.pure (.error .valueError)

/-- `LeafUnit.sample` (`nx/probabilistic_circuit.py:271-279`).  `np.random.choice` raises `ValueError` for probabilities that do not sum
to one (up to a tolerance, which is not modelled). -/
noncomputable def leafWritesR (rows : ℕ) (n : Node) (d : Leaf) : List (ℕ × ℕ) → Rand (Except PyErr (List Write))
  | [] => Rand.pure (.ok [])
  | q :: qs => open Classical in
    if d.Normalized ∧ q.1 + q.2 ≤ rows then fun f =>
      Rand.leafValues d q.2 fun xs =>
        Rand.bindE (leafWritesR rows n d qs)
          (fun Ws => Rand.pure (.ok ((xs.zipIdx.map fun x => (⟨q.1 + x.2, d.var, n, x.1⟩ : Write)) ++ Ws))) f
    else Rand.pure (.error .valueError)

/-- One unit of the pass. -/
noncomputable def sampleUnitR (g : Circuit) (rows : ℕ) (s : Requests × List Write) (n : Node) :
    Rand (Except PyErr (Requests × List Write)) :=
  match g.kind? n with
  | none => Rand.pure (.error .networkXError)
  | some (.leaf d) => Rand.bindE (leafWritesR rows n d (s.1 n)) fun ws => Rand.pure (.ok (s.1, s.2 ++ ws))
  | some .sum =>
    Rand.bindE (Rand.pure (g.logWeights n)) fun ws =>
      Rand.bindE (g.sumRequestsR n ws (s.1 n)) fun P => Rand.pure (.ok (pushAll s.1 P, s.2))
  | some .prod => Rand.pure (.ok (pushAll s.1 (g.prodRequests n (s.1 n)), s.2))

/-- The pass over the units. -/
noncomputable def samplePassR (g : Circuit) (rows : ℕ) : List Node → Requests × List Write → Rand (Except PyErr (Requests × List Write))
  | [], s => Rand.pure (.ok s)
  | n :: ns, s => Rand.bindE (g.sampleUnitR rows s n) (samplePassR g rows ns)

/-- `ProbabilisticCircuit.sample` (`nx/probabilistic_circuit.py:947-964`). -/
noncomputable def sampleR (g : Circuit) (amount : ℕ) : Rand (Except PyErr (List Write)) :=
  Rand.bindE (Rand.pure g.circuitVars) fun _ =>
    Rand.bindE (Rand.pure g.root) fun r =>
      Rand.bindE (g.samplePassR amount (g.topDown r) (pushAll (fun _ => []) [(r, 0, amount)], [])) fun s =>
        Rand.pure (.ok s.2)

end Graph

end PM
