import Verif.Tree.Model

/-!
`operator==` of the model of the tree debugger, as derived by `LAGER_STRUCT_NESTED`, `extra/derive/eq.hpp`.
-/

namespace Verif.Tree

variable {A M : Type}

mutual
/-- `operator==` of `step`, `tree_debugger.hpp:88`. -/
def Step.eqv [DecidableEq A] [DecidableEq M] : Step A M → Step A M → Bool
  | .mk a m b, .mk a' m' b' => decide (a = a') && decide (m = m') && eqvBranches b b'

/-- … of vectors of histories. -/
def eqvBranches [DecidableEq A] [DecidableEq M] : List (List (Step A M)) → List (List (Step A M)) → Bool
  | [], [] => true
  | h :: b, h' :: b' => eqvHistory h h' && eqvBranches b b'
  | _, _ => false

/-- … of histories. -/
def eqvHistory [DecidableEq A] [DecidableEq M] : List (Step A M) → List (Step A M) → Bool
  | [], [] => true
  | s :: h, s' :: h' => s.eqv s' && eqvHistory h h'
  | _, _ => false
end

mutual
theorem Step.eqv_iff [DecidableEq A] [DecidableEq M] : ∀ s t : Step A M, s.eqv t = true ↔ s = t
  | .mk a m b, .mk a' m' b' => by
    rw [Step.eqv, Bool.and_eq_true, Bool.and_eq_true, decide_eq_true_eq, decide_eq_true_eq, eqvBranches_iff b b']
    simp [and_assoc]

theorem eqvBranches_iff [DecidableEq A] [DecidableEq M] : ∀ b b' : List (List (Step A M)), eqvBranches b b' = true ↔ b = b'
  | [], [] => by simp [eqvBranches]
  | h :: b, h' :: b' => by
    rw [eqvBranches, Bool.and_eq_true, eqvHistory_iff h h', eqvBranches_iff b b']
    simp
  | [], _ :: _ => by simp [eqvBranches]
  | _ :: _, [] => by simp [eqvBranches]

theorem eqvHistory_iff [DecidableEq A] [DecidableEq M] : ∀ h h' : List (Step A M), eqvHistory h h' = true ↔ h = h'
  | [], [] => by simp [eqvHistory]
  | s :: h, s' :: h' => by
    rw [eqvHistory, Bool.and_eq_true, Step.eqv_iff s s', eqvHistory_iff h h']
    simp
  | [], _ :: _ => by simp [eqvHistory]
  | _ :: _, [] => by simp [eqvHistory]
end

instance [DecidableEq A] [DecidableEq M] : DecidableEq (Step A M) := fun s t =>
  decidable_of_iff _ (Step.eqv_iff s t)

deriving instance DecidableEq for Action
deriving instance DecidableEq for Model

end Verif.Tree
