import Verif.Spec.Fit

/-!
# Specification: the trained numbers of a layer, and a training run
-/

namespace PM.Spec
open PM.Jax

/-- The location of a Gaussian node. -/
def locationsOf : InputNode → List LogP
  | .gaussian l _ _ => [.fin l]
  | _ => []

/-- The log scale of a Gaussian node. -/
def logScalesOf : InputNode → List LogP
  | .gaussian _ s _ => [.fin s]
  | _ => []

/-- The log probabilities of a discrete node. -/
def logProbabilitiesOf : InputNode → List LogP
  | .discrete logs => logs
  | _ => []

mutual
/-- All numbers of a layer that are trained: those of the child layers, then the weights; in an input layer the locations, the log scales and
the log probabilities. -/
def trainedNumbers : Layer → List LogP
  | .input _ nodes => nodes.flatMap locationsOf ++ nodes.flatMap logScalesOf ++ nodes.flatMap logProbabilitiesOf
  | .sparseSum ws cs => trainedNumbersOfAll cs ++ ws.flatMap fun w => w.entries.map fun e => e.2.2
  | .denseSum ws cs => trainedNumbersOfAll cs ++ ws.flatten.flatten
  | .product _ _ cs => trainedNumbersOfAll cs
def trainedNumbersOfAll : List Layer → List LogP
  | [] => []
  | c :: cs => trainedNumbers c ++ trainedNumbersOfAll cs
end

/-- The optimizer returns one update for every trained number. -/
def FullUpdates {S : Type} (opt : Optimizer S) : Prop :=
  ∀ gradient s L, (opt.update gradient s L).1.length = (trainedNumbers L).length

/-- A training run: circuits and states of the optimizer, one per epoch.  In every epoch the optimizer is asked with the gradient at the
current circuit and its current state; its updates are added to the trained numbers, nothing else changes, and its new state is kept. -/
structure TrainingRun {S : Type} (opt : Optimizer S) (grad : Layer → List ℝ) (L : Layer) (epochs : ℕ) (circuits : ℕ → Layer)
    (states : ℕ → S) : Prop where
  start : circuits 0 = L
  init : states 0 = opt.init L
  state : ∀ k < epochs, states (k + 1) = (opt.update (grad (circuits k)) (states k) (circuits k)).2
  structure_kept : ∀ k < epochs, skeleton (circuits (k + 1)) = skeleton (circuits k)
  numbers : ∀ k < epochs, trainedNumbers (circuits (k + 1)) =
    List.zipWith (fun p u => p + LogP.fin u) (trainedNumbers (circuits k)) (opt.update (grad (circuits k)) (states k) (circuits k)).1

end PM.Spec
