import Verif.Circuit.ValueLemmas

/-!
# Example circuits

Concrete circuits used beside the property theorems to show that their hypotheses can be met, and as witnesses.
-/

namespace PM.Ex

open Spec Graph PM.Bound

theorem forall_kind {D : Type} {g : Graph D} {P : Node → Kind D → Prop} (h : ∀ p ∈ g.nodes, P p.1 p.2) :
    ∀ n k, g.kind? n = some k → P n k := by
  intro n k hk
  simp only [kind?, Option.map_eq_some_iff] at hk
  obtain ⟨p, hp, rfl⟩ := hk
  have h1 := List.mem_of_find?_eq_some hp
  have h2 := List.find?_some hp
  simp only [beq_iff_eq] at h2
  subst h2
  exact h p h1

/-- A mixture over two variables with a shared unit:
`0: ⊕ → 1: ⊗ (log 1/4), 2: ⊗ (log 3/4)`, `1 → 3: U₀[0,1], 4: U₁[0,2)`, `2 → 3, 5: U₁[2,4]`. -/
noncomputable def dag : Circuit where
  nodes := [(0, .sum), (1, .prod), (2, .prod), (3, .leaf (.uniform 0 0 1 closed closed)),
    (4, .leaf (.uniform 1 0 2 closed opn)), (5, .leaf (.uniform 1 2 4 closed closed))]
  edges := [⟨0, 1, some (.fin (Real.log (1 / 4)))⟩, ⟨0, 2, some (.fin (Real.log (3 / 4)))⟩, ⟨1, 3, none⟩, ⟨1, 4, none⟩,
    ⟨2, 3, none⟩, ⟨2, 5, none⟩]

def dagScope : Node → Finset Var := fun n =>
  if n = 3 then {0} else if n = 4 then {1} else if n = 5 then {1} else {0, 1}

theorem dag_nodes : dag.nodes = [(0, .sum), (1, .prod), (2, .prod), (3, .leaf (.uniform 0 0 1 closed closed)),
    (4, .leaf (.uniform 1 0 2 closed opn)), (5, .leaf (.uniform 1 2 4 closed closed))] := rfl
theorem dag_succ0 : dag.succ 0 = [1, 2] := rfl
theorem dag_succ1 : dag.succ 1 = [3, 4] := rfl
theorem dag_succ2 : dag.succ 2 = [3, 5] := rfl

theorem dag_layered : Layered dag 0 where
  wf := ⟨by decide, by decide, by simp [dag, ids], by simp [dag, ids]⟩
  graded := ⟨fun n => if n = 0 then 0 else if n ≤ 2 then 1 else 2, by simp [dag]⟩
  leaves := fun n d h => by
    have := forall_kind (g := dag) (P := fun n k => ∀ d, k = .leaf d → dag.succ n = [])
      (by simp [dag, succ, outEdges]) n _ h
    exact this d rfl
  weighted := fun n h => by
    have := forall_kind (g := dag) (P := fun n k => k = .sum → ∀ e ∈ dag.outEdges n, e.weight.isSome)
      (by simp [dag, outEdges]) n _ h
    exact this rfl
  root := by simp [root, dag, ids, inDegree, inEdges]

theorem dag_scoped : Scoped dag dagScope where
  leaf := fun n d h => by
    have := forall_kind (g := dag) (P := fun n k => ∀ d, k = .leaf d → dagScope n = {d.var})
      (by simp [dag, dagScope, Leaf.var]) n _ h
    exact this d rfl
  sumNe := fun n h => by
    have := forall_kind (g := dag) (P := fun n k => k = .sum → dag.succ n ≠ [])
      (by simp [dag, succ, outEdges]) n _ h
    exact this rfl
  sum := fun n h => by
    have := forall_kind (g := dag) (P := fun n k => k = .sum → ∀ c ∈ dag.succ n, dagScope c = dagScope n)
      (by simp [dag_nodes, dag_succ0, dag_succ1, dag_succ2, dagScope]) n _ h
    exact this rfl
  prod := fun n h => by
    have := forall_kind (g := dag) (P := fun n k => k = .prod → ∀ v, v ∈ dagScope n ↔ ∃ c ∈ dag.succ n, v ∈ dagScope c)
      (by simp [dag_nodes, dag_succ0, dag_succ1, dag_succ2, dagScope]) n _ h
    exact this rfl

theorem dag_decomposable : Decomposable dag dagScope := fun n h => by
  have := forall_kind (g := dag)
    (P := fun n k => k = .prod → (dag.succ n).Pairwise fun a b => Disjoint (dagScope a) (dagScope b))
    (by simp [dag_nodes, dag_succ0, dag_succ1, dag_succ2, dagScope]) n _ h
  exact this rfl

theorem dag_valid : ∀ n d, dag.kind? n = some (.leaf d) → d.Valid := fun n d h => by
  have := forall_kind (g := dag) (P := fun n k => ∀ d, k = .leaf d → d.Valid)
    (by simp [dag, Leaf.Valid]; norm_num) n _ h
  exact this d rfl

end PM.Ex
