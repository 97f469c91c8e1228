import Verif.Circuit.Conditional
import Verif.Circuit.Structure
import Verif.Dist.Transform

/-!
# Circuits with distribution objects

In Python a leaf unit holds a reference to a distribution object, and a discrete distribution holds a reference to its probability
dictionary.  Copies may share them.  Here a circuit is a graph whose leaves carry references into a heap; the units themselves (their
`distribution` attribute, their edges) belong to exactly one circuit.
-/

namespace PM

/-- A distribution object.  The attributes of continuous distributions (numbers, immutable intervals) are values; a discrete distribution
has a reference to its dictionary (`distributions/distributions.py:249-255`). -/
inductive Obj where
  | value (d : Leaf)
  | discrete (sym : Bool) (v : Var) (dict : ℕ)

/-- The objects and the dictionaries that exist, numbered in the order of their creation. -/
structure Heap where
  obj : ℕ → Obj
  dict : ℕ → List (ℤ × ℝ)
  nextObj : ℕ
  nextDict : ℕ

/-- A computation that changes the heap; changes made before an exception stay. -/
abbrev HM (α : Type) := Heap → Heap × Except PyErr α

namespace HM

variable {α β : Type}

def ret (a : α) : HM α := fun h => (h, .ok a)

def raise (e : PyErr) : HM α := fun h => (h, .error e)

def bind (x : HM α) (f : α → HM β) : HM β := fun h =>
  match x h with
  | (h', .ok a) => f a h'
  | (h', .error e) => (h', .error e)

/-- A computation that does not touch the heap. -/
def lift (x : Except PyErr α) : HM α := fun h => (h, x)

/-- `for a in l: s = f(s, a)`. -/
def foldl (f : β → α → HM β) : List α → β → HM β
  | [], s => ret s
  | a :: l, s => bind (f s a) (foldl f l)

/-- `[f(a) for a in l]`. -/
def map (f : α → HM β) : List α → HM (List β)
  | [] => ret []
  | a :: l => bind (f a) fun b => bind (map f l) fun bs => ret (b :: bs)

end HM

namespace Heap

/-- The distribution a reference stands for at the moment. -/
def read (h : Heap) (r : ℕ) : Leaf :=
  match h.obj r with
  | .value d => d
  | .discrete true v k => .symbolic v (h.dict k)
  | .discrete false v k => .integer v (h.dict k)

/-- `obj.__init__`: a new object. -/
def newObj (o : Obj) : HM ℕ := fun h =>
  ({ h with obj := fun i => if i = h.nextObj then o else h.obj i, nextObj := h.nextObj + 1 }, .ok h.nextObj)

/-- `MissingDict(...)`: a new dictionary. -/
def newDict (d : List (ℤ × ℝ)) : HM ℕ := fun h =>
  ({ h with dict := fun i => if i = h.nextDict then d else h.dict i, nextDict := h.nextDict + 1 }, .ok h.nextDict)

/-- Assign the attributes of an existing object. -/
def setObj (r : ℕ) (o : Obj) : HM Unit := fun h => ({ h with obj := fun i => if i = r then o else h.obj i }, .ok ())

/-- A new distribution object with the given parameters; a discrete one gets a new dictionary. -/
def newLeaf (d : Leaf) : HM ℕ :=
  match d with
  | .symbolic v probs => HM.bind (newDict probs) fun k => newObj (.discrete true v k)
  | .integer v probs => HM.bind (newDict probs) fun k => newObj (.discrete false v k)
  | d => newObj (.value d)

/-- Give an existing distribution object new parameters; `self.probabilities = new_probabilities` binds a new dictionary
(`distributions/distributions.py:286, 424, 496-506`). -/
def assign (r : ℕ) (d : Leaf) : HM Unit :=
  match d with
  | .symbolic v probs => HM.bind (newDict probs) fun k => setObj r (.discrete true v k)
  | .integer v probs => HM.bind (newDict probs) fun k => setObj r (.discrete false v k)
  | d => setObj r (.value d)

/-- `distribution.__copy__()` (`distributions/distributions.py:350-351, 590-591`, `distributions/gaussian.py:110-111, 260-261`,
`distributions/uniform.py:92-93`): a new object with the same attributes; the copy of a discrete distribution has the *same*
dictionary. -/
def copyDist (r : ℕ) : HM ℕ := fun h => newObj (h.obj r) h

/-- `DiscreteDistribution.normalize` (`distributions/distributions.py:320-326`): writes into the dictionary.  Continuous distributions
have no such method. -/
noncomputable def normalizeDist (r : ℕ) : HM Unit := fun h =>
  match h.obj r with
  | .value _ => (h, .error .attributeError)
  | .discrete _ _ k => ({ h with dict := fun i => if i = k then Leaf.normalizeProbs (h.dict k) else h.dict i }, .ok ())

/-- The `new_probabilities` of `log_conditional_of_composite_set`: symbolic (`distributions/distributions.py:379-384`), integer
(`:333-338`). -/
noncomputable def keptProbs (d : Leaf) (A : VSet) : Except PyErr (List (ℤ × ℝ)) := open Classical in
  match d, A with
  | .symbolic _ probs, .symbols S => .ok ((S.filter fun k => 0 < Leaf.lookup probs k).map fun k => (k, Leaf.lookup probs k))
  | .integer _ probs, .interval I => .ok (probs.filter fun kp => (VSet.interval I).Mem (kp.1 : ℝ))
  | _, _ => .error .typeError

/-- `DiscreteDistribution.log_conditional_of_composite_set` (`distributions/distributions.py:333-348, 379-393`): the new dictionary, the
new object, then `result.normalize()` on it. -/
noncomputable def conditionDiscrete (r : ℕ) (A : VSet) : HM (Option ℕ × LogP) := fun h => open Classical in
  match h.obj r with
  | .value _ => (h, .error .attributeError)
  | .discrete sym v _ =>
    HM.bind (HM.lift (keptProbs (h.read r) A)) (fun kept =>
      if (kept.map Prod.snd).sum = 0 then HM.ret (none, .negInf)
      else
        HM.bind (newDict kept) fun k =>
          HM.bind (newObj (.discrete sym v k)) fun r' =>
            HM.bind (normalizeDist r') fun _ => HM.ret (some r', LogP.log (kept.map Prod.snd).sum)) h

/-- What happens to a leaf unit that is conditioned in place, with references. -/
inductive CondRef where
  | impossible
  | one (r : ℕ) (p : LogP)
  | several (ps : List (ℕ × LogP))

/-- `self.distribution, self.result_of_current_query = …`. -/
def CondRef.ofPair : Option ℕ × LogP → CondRef
  | (none, _) => .impossible
  | (some r, p) => .one r p

/-- `log_conditional_of_simple_event_in_place` of a leaf (`nx/probabilistic_circuit.py:258-259`,
`nx/distributions/distributions.py:26-81`).  Conditioning a continuous distribution creates new distribution objects. -/
noncomputable def condInPlace (r : ℕ) (A : VSet) : HM CondRef := fun h =>
  match h.obj r with
  | .discrete .. =>
    HM.bind (conditionDiscrete r A) (fun res => HM.ret (CondRef.ofPair res)) h
  | .value d =>
    match d.condInPlace A with
    | .error e => (h, .error e)
    | .ok .impossible => (h, .ok .impossible)
    | .ok (.one d' p) => HM.bind (newLeaf d') (fun r' => HM.ret (.one r' p)) h
    | .ok (.several ps) =>
      HM.bind (HM.map (fun q : Leaf × LogP => HM.bind (newLeaf q.1) fun r' => HM.ret (r', q.2)) ps) (fun rs => HM.ret (.several rs)) h

end Heap

/-- A circuit whose leaves refer to distribution objects. -/
abbrev RefCircuit := Graph ℕ

namespace Kind

variable {D D' : Type}

/-- The same unit with another representation of its distribution. -/
def map (f : D → D') : Kind D → Kind D'
  | .leaf d => .leaf (f d)
  | .sum => .sum
  | .prod => .prod

end Kind

namespace Graph

/-- The same circuit with another representation of the distributions. -/
def mapLeaf {D D' : Type} (f : D → D') (g : Graph D) : Graph D' :=
  { nodes := g.nodes.map fun p => (p.1, p.2.map f), edges := g.edges }

/-- The circuit a user sees: the distributions at the leaves as they are at the moment. -/
def view (h : Heap) (g : RefCircuit) : Circuit := g.mapLeaf h.read

namespace OnHeap

open Heap

/-- `unit.__copy__()` (`nx/probabilistic_circuit.py:261-262, 454-455, 700-701`). -/
def copyUnit (p : Node × Kind ℕ) : HM (Node × Kind ℕ) :=
  match p.2 with
  | .leaf r => HM.bind (copyDist r) fun r' => HM.ret (p.1, .leaf r')
  | .sum => HM.ret (p.1, .sum)
  | .prod => HM.ret (p.1, .prod)

/-- `ProbabilisticCircuit.__copy__` (`nx/probabilistic_circuit.py:1007-1017`). -/
def copy (g : RefCircuit) : HM RefCircuit :=
  HM.bind (HM.map copyUnit g.nodes) fun ns => HM.ret (Graph.copy { g with nodes := ns })

/-- The circuit and the results after a leaf was conditioned (`nx/distributions/distributions.py:35-81`). -/
noncomputable def afterLeaf (s : RefCircuit × Mem LogP) (n : Node) : CondRef → HM (RefCircuit × Mem LogP)
  | .impossible => HM.ret (s.1, s.2.set n .negInf)
  | .one r' p => HM.ret (s.1.setLeaf n r', s.2.set n p)
  | .several ps =>
    HM.bind (HM.lift (s.1.expandLeaf n ps)) fun g' =>
      HM.ret (g', fun k =>
        if k = s.1.fresh then some (LogP.log (ps.map fun q => q.2.exp).sum)
        else if s.1.fresh < k then none else s.2 k)

/-- One unit of the pass in `log_conditional_of_simple_event_in_place` (`nx/probabilistic_circuit.py:859-866`). -/
noncomputable def conditionUnit (E : SimpleEvent) (s : RefCircuit × Mem LogP) (n : Node) : HM (RefCircuit × Mem LogP) :=
  match s.1.kind? n with
  | none => HM.raise .networkXError
  | some (.leaf r) => fun h =>
    HM.bind (HM.lift (E.get (h.read r).var)) (fun A =>
      HM.bind (condInPlace r A) (afterLeaf s n)) h
  | some _ => HM.bind (HM.lift (s.1.evalUnit logForwardAlg s.2 n)) fun v => HM.ret (s.1, s.2.set n v)

/-- The steps after the pass (`nx/probabilistic_circuit.py:868-880`). -/
noncomputable def cleanUp (s : RefCircuit × Mem LogP) : Except PyErr (Option (RefCircuit × Mem LogP) × LogP) := do
  let r1 ← s.1.root
  let dead := (s.1.bottomUp r1).filter (impossibleIn s.2)
  if r1 ∈ dead then .ok (none, .negInf)
  else do
    let g2 := (s.1.induced fun n => decide (n ∉ dead)).removeUnreachable r1
    let g3 ← g2.simplify
    let g4 ← g3.normalize
    let p ← readResult s.2 r1
    .ok (some (g4, s.2), p)

/-- `ProbabilisticCircuit.log_conditional_of_simple_event_in_place` (`nx/probabilistic_circuit.py:852-880`). -/
noncomputable def conditionSimple (g : RefCircuit) (m : Mem LogP) (E : SimpleEvent) : HM (Option (RefCircuit × Mem LogP) × LogP) :=
  HM.bind (HM.lift g.root) fun r =>
    HM.bind (HM.foldl (conditionUnit E) (g.bottomUp r) (g, m)) fun s => HM.lift (cleanUp s)

/-- The steps after the conditional circuits were made (`nx/probabilistic_circuit.py:908-928`). -/
noncomputable def mix (all : List (Option (RefCircuit × Mem LogP) × LogP)) : Except PyErr (Option RefCircuit × LogP) :=
  match possible all with
  | [] => .ok (none, .negInf)
  | l => do
    let (g', cs) ← mountAll l (⟨[(0, .sum)], []⟩, [])
    let p ← mixtureForward cs
    let g'' ← g'.normalizeUnit 0
    .ok (some g'', p)

/-- `ProbabilisticCircuit.log_conditional_in_place` (`nx/probabilistic_circuit.py:882-928`). -/
noncomputable def logConditionalInPlace (g : RefCircuit) (m : Mem LogP) (Es : Event) : HM (Option RefCircuit × LogP) :=
  match Es with
  | [] => HM.ret (none, .negInf)
  | [E] => HM.bind (conditionSimple g m E) fun q => HM.ret (q.1.map Prod.fst, q.2)
  | Es =>
    HM.bind (HM.map (fun E => HM.bind (copy g) fun g' => conditionSimple g' freshMem E) Es) fun all => HM.lift (mix all)

/-- `node.marginal(variables)` (`nx/probabilistic_circuit.py:282-289, 329-333`); `distribution.marginal` returns the distribution itself
(`distributions/distributions.py:52-56`). -/
noncomputable def marginalUnit (vs : Finset Var) (s : RefCircuit × Bool) (n : Node) : HM (RefCircuit × Bool) := fun h =>
  match s.1.kind? n with
  | none => (h, .error .networkXError)
  | some (.leaf r) => if (h.read r).var ∈ vs then (h, .ok (s.1, true)) else (h, .ok (s.1.removeNode n, false))
  | some _ => if s.1.succ n = [] then (h, .ok (s.1.removeNode n, false)) else (h, .ok (s.1, true))

/-- `ProbabilisticCircuit.marginal_in_place` (`nx/probabilistic_circuit.py:934-942`). -/
noncomputable def marginalInPlace (g : RefCircuit) (vs : Finset Var) : HM (Option RefCircuit) :=
  HM.bind (HM.lift g.root) fun r =>
    HM.bind (HM.foldl (marginalUnit vs) (g.bottomUp r) (g, false)) fun s =>
      if s.2 then HM.bind (HM.lift (s.1.removeUnreachable r).simplify) fun g'' => HM.ret (some g'')
      else HM.ret none

/-- A change of the distribution object of the leaf `n`, e.g. `leaf.distribution.translate(…)`. -/
def changeLeaf (φ : Leaf → Except PyErr Leaf) (g : RefCircuit) (n : Node) : HM Unit := fun h =>
  match g.kind? n with
  | some (.leaf r) => HM.bind (HM.lift (φ (h.read r))) (fun d' => assign r d') h
  | _ => (h, .error .attributeError)

/-- `for leaf in self.leaves: …` (`nx/probabilistic_circuit.py:1282-1288`). -/
def changeLeaves (g : RefCircuit) (φ : Leaf → Except PyErr Leaf) : HM Unit :=
  HM.bind (HM.lift g.root) fun r => HM.foldl (fun _ n => changeLeaf φ g n) (g.leavesOf r) ()

/-- `leaf.distribution.variable = …` in `Unit.update_variables` (`nx/probabilistic_circuit.py:102-105`): the attribute of the object, the
dictionary stays. -/
def renameLeaf (ρ : Var → Var) (g : RefCircuit) (n : Node) : HM Unit := fun h =>
  match g.kind? n with
  | some (.leaf r) =>
    match h.obj r with
    | .discrete sym v k => setObj r (.discrete sym (ρ v) k) h
    | .value (.uniform v lo hi a b) => setObj r (.value (.uniform (ρ v) lo hi a b)) h
    | .value (.dirac v x c) => setObj r (.value (.dirac (ρ v) x c)) h
    | .value (.symbolic v p) => setObj r (.value (.symbolic (ρ v) p)) h
    | .value (.integer v p) => setObj r (.value (.integer (ρ v) p)) h
    | .value (.gaussian v a b) => setObj r (.value (.gaussian (ρ v) a b)) h
    | .value (.truncGaussian v I a b) => setObj r (.value (.truncGaussian (ρ v) I a b)) h
  | _ => (h, .error .attributeError)

/-- `leaf.distribution.normalize()` for the leaf `n`. -/
noncomputable def normalizeLeaf (g : RefCircuit) (n : Node) : HM Unit := fun h =>
  match g.kind? n with
  | some (.leaf r) => normalizeDist r h
  | _ => (h, .error .attributeError)

end OnHeap
end Graph

/-! ### A user with several circuits -/

/-- What can be done to a circuit in place. -/
inductive Edit where
  | conditional (Es : Event)
  | marginal (vs : Finset Var)
  | simplify
  | normalize
  | translate (t : Var → Option ℝ)
  | scale (t : Var → Option ℝ)
  | updateVariables (ρ : Var → Var)
  /-- `leaf.distribution.fit(data)` for the (integer) leaf `n` -/
  | fit (n : Node) (v : Var) (data : List ℤ)
  /-- `leaf.distribution = distribution` with a new distribution -/
  | setDistribution (n : Node) (d : Leaf)
  /-- `leaf.distribution.normalize()` -/
  | normalizeLeaf (n : Node)

/-- A call of the user.  Circuits are numbered in the order in which the user got them. -/
inductive Call where
  | copy (i : ℕ)
  | conditional (i : ℕ) (Es : Event)
  | marginal (i : ℕ) (vs : Finset Var)
  | edit (i : ℕ) (e : Edit)

/-- The heap and the circuits the user holds. -/
structure World where
  heap : Heap
  circuits : List RefCircuit

namespace World

open Graph

/-- An edit of one circuit: the circuit afterwards.  (After `None` or an exception the circuit is in a state that the model does not
describe, here it keeps its graph; the changes in the heap stay.) -/
noncomputable def applyEdit (g : RefCircuit) : Edit → HM RefCircuit
  | .conditional Es => HM.bind (OnHeap.logConditionalInPlace g freshMem Es) fun q => HM.ret (q.1.getD g)
  | .marginal vs => HM.bind (OnHeap.marginalInPlace g vs) fun q => HM.ret (q.getD g)
  | .simplify => HM.lift g.simplify
  | .normalize => HM.lift g.normalize
  | .translate t => HM.bind (OnHeap.changeLeaves g (Leaf.translate t)) fun _ => HM.ret g
  | .scale t => HM.bind (OnHeap.changeLeaves g (Leaf.rescale t)) fun _ => HM.ret g
  | .updateVariables ρ =>
    HM.bind (HM.lift g.root) fun r => HM.bind (HM.foldl (fun _ n => OnHeap.renameLeaf ρ g n) (g.leavesOf r) ()) fun _ => HM.ret g
  | .fit n v data => HM.bind (OnHeap.changeLeaf (fun _ => .ok (.integer v (Leaf.fitDiscrete data))) g n) fun _ => HM.ret g
  | .setDistribution n d => HM.bind (Heap.newLeaf d) fun r => HM.ret (g.setLeaf n r)
  | .normalizeLeaf n => HM.bind (OnHeap.normalizeLeaf g n) fun _ => HM.ret g

/-- Take over the result of a computation that makes a new circuit; `None` and exceptions give the user nothing. -/
def add (w : World) (res : Heap × Except PyErr (Option RefCircuit)) : World :=
  match res with
  | (h, .ok (some g)) => ⟨h, w.circuits ++ [g]⟩
  | (h, _) => ⟨h, w.circuits⟩

/-- `circuit.__copy__()`: a new circuit object and its number. -/
def copyAt (w : World) (i : ℕ) : World × Option ℕ :=
  match w.circuits[i]? with
  | some g => (w.add (HM.bind (OnHeap.copy g) (fun g' => HM.ret (some g')) w.heap), some w.circuits.length)
  | none => (w, none)

/-- A method that works in place, called on the circuit object `i`: what it does to the graph is done to that object. -/
noncomputable def editAt (w : World) (i : ℕ) (e : Edit) : World :=
  match w.circuits[i]? with
  | some g =>
    match applyEdit g e w.heap with
    | (h, .ok g') => ⟨h, w.circuits.set i g'⟩
    | (h, .error _) => ⟨h, w.circuits⟩
  | none => w

/-- `ProbabilisticCircuit.log_conditional` (`nx/probabilistic_circuit.py:930-932`): `result = self.__copy__()` and then
`result.log_conditional_in_place(event)`.  A circuit object that becomes impossible keeps its number. -/
noncomputable def conditionalAt (w : World) (i : ℕ) (Es : Event) : World :=
  match w.copyAt i with
  | (w', some result) => w'.editAt result (.conditional Es)
  | (w', none) => w'

/-- `ProbabilisticCircuit.marginal` (`nx/probabilistic_circuit.py:943-945`): `result = self.__copy__()` and then
`result.marginal_in_place(variables)`. -/
noncomputable def marginalAt (w : World) (i : ℕ) (vs : Finset Var) : World :=
  match w.copyAt i with
  | (w', some result) => w'.editAt result (.marginal vs)
  | (w', none) => w'

/-- One call.  A call on a circuit the user does not have does nothing. -/
noncomputable def step (w : World) : Call → World
  | .copy i => (w.copyAt i).1
  | .conditional i Es => w.conditionalAt i Es
  | .marginal i vs => w.marginalAt i vs
  | .edit i e => w.editAt i e

/-- A history of calls. -/
noncomputable def run (w : World) (calls : List Call) : World := calls.foldl step w

/-- What the user sees of circuit `i`: units, edges, weights and distributions. -/
def look (w : World) (i : ℕ) : Option Circuit := w.circuits[i]?.map (Graph.view w.heap)

end World
end PM
