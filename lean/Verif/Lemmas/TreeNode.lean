import Verif.Spec.RootedTree
import Mathlib.Algebra.BigOperators.Fin
import Mathlib.Data.Fintype.BigOperators
import Mathlib.Data.Fintype.Pi

/-!
# Rooted trees as a root with a tuple of children
-/

namespace QMat.Spec

open Matrix

namespace RTree

theorem one_le_order : ∀ t : RTree, 1 ≤ t.order
  | leaf => le_rfl
  | graft t s => by have := one_le_order t; simp only [order]; omega

/-- The tree whose root has the children `v 0, v 1, …`. -/
def node : (k : ℕ) → (Fin k → RTree) → RTree
  | 0, _ => leaf
  | k + 1, v => graft (node k (Fin.init v)) (v (Fin.last k))

/-- The children of the root. -/
def unnode : RTree → (k : ℕ) × (Fin k → RTree)
  | leaf => ⟨0, Fin.elim0⟩
  | graft t s => ⟨t.unnode.1 + 1, Fin.snoc (α := fun _ => RTree) t.unnode.2 s⟩

theorem unnode_node : ∀ (k : ℕ) (v : Fin k → RTree), (node k v).unnode = ⟨k, v⟩
  | 0, v => by
    simp only [node, unnode]
    congr
    exact Subsingleton.elim _ _
  | k + 1, v => by
    simp only [node, unnode]
    rw [unnode_node k (Fin.init v)]
    simp

theorem node_unnode : ∀ t : RTree, node t.unnode.1 t.unnode.2 = t
  | leaf => rfl
  | graft t s => by
    simp only [unnode, node]
    rw [Fin.init_snoc, node_unnode t, Fin.snoc_last]

theorem order_node : ∀ (k : ℕ) (v : Fin k → RTree), (node k v).order = 1 + ∑ j, (v j).order
  | 0, v => by simp [node, order]
  | k + 1, v => by
    simp only [node, order]
    rw [order_node k, Fin.sum_univ_castSucc]
    simp only [Fin.init]
    omega

theorem childDensity_node : ∀ (k : ℕ) (v : Fin k → RTree),
    (node k v).childDensity = ∏ j, (v j).density
  | 0, v => by simp [node, childDensity]
  | k + 1, v => by
    simp only [node, childDensity]
    rw [childDensity_node k, Fin.prod_univ_castSucc]
    rfl

theorem exists_node (t : RTree) : ∃ k v, t = node k v := ⟨_, _, (node_unnode t).symm⟩

/-- The trees with at most `m` vertices. -/
def upTo : ℕ → Finset RTree
  | 0 => ∅
  | m + 1 => (((Finset.range (m + 1)).sigma fun k => Fintype.piFinset fun _ : Fin k => upTo m).image
      fun σ => node σ.1 σ.2).filter fun t => t.order ≤ m + 1

theorem mem_upTo : ∀ (m : ℕ) (t : RTree), t ∈ upTo m ↔ t.order ≤ m
  | 0, t => by
    have := one_le_order t
    simp only [upTo, Finset.notMem_empty, false_iff]
    omega
  | m + 1, t => by
    simp only [upTo, Finset.mem_filter, Finset.mem_image, Finset.mem_sigma, Finset.mem_range,
      Fintype.mem_piFinset, and_iff_right_iff_imp]
    intro h
    obtain ⟨k, v, rfl⟩ := exists_node t
    rw [order_node] at h
    refine ⟨⟨k, v⟩, ⟨?_, fun j => (mem_upTo m _).2 ?_⟩, rfl⟩
    · have : ∑ j : Fin k, 1 ≤ ∑ j, (v j).order := Finset.sum_le_sum fun j _ => one_le_order _
      simp only [Finset.sum_const, Finset.card_univ, Fintype.card_fin, smul_eq_mul, mul_one] at this
      change k < m + 1
      omega
    · have : (v j).order ≤ ∑ j, (v j).order :=
        Finset.single_le_sum (f := fun j => (v j).order) (fun _ _ => Nat.zero_le _)
          (Finset.mem_univ j)
      change (v j).order ≤ m
      omega

theorem node_injective {k k' : ℕ} {v : Fin k → RTree} {v' : Fin k' → RTree}
    (h : node k v = node k' v') : (⟨k, v⟩ : (k : ℕ) × (Fin k → RTree)) = ⟨k', v'⟩ := by
  rw [← unnode_node k v, ← unnode_node k' v', h]

end RTree

end QMat.Spec
