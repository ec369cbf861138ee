import Verif.Spec.Json
import Verif.Model.Xml
/- What is expected of the xml library, and what it means that an imported model is the exported one. -/

namespace EFG

/-! ### The library -/

/-- The attributes may come in another order, but the attributes with the same name keep their order. -/
def SameAttributes (a b : List (String × List Char)) : Prop :=
  ∀ k, b.filter (fun e => e.1 == k) = a.filter (fun e => e.1 == k)

mutual
/-- `t'` is what may be found in a file where `t` was printed: the nested tags may come in any order. -/
inductive Tag.Reordered : Tag → Tag → Prop where
  | mk {a a' : List (String × List Char)} {n m n' : List (String × Tag)} :
      SameAttributes a a' → Tag.ReorderedAll n m → m.Perm n' → Tag.Reordered (.mk a n) (.mk a' n')

/-- `Reordered` for each tag of a list. -/
inductive Tag.ReorderedAll : List (String × Tag) → List (String × Tag) → Prop where
  | nil : Tag.ReorderedAll [] []
  | cons {k : String} {t t' : Tag} {l l' : List (String × Tag)} :
      Tag.Reordered t t' → Tag.ReorderedAll l l' → Tag.ReorderedAll ((k, t) :: l) ((k, t') :: l')
end

variable {F : Type} [Arith F]

namespace State

/-- Names which are not empty, sizes which fit in an `int`, images and weights which are read as they were
printed. -/
structure Printable (tx : FloatText F) (s : State F) : Prop where
  names : ∀ v ∈ s.vars, v.name ≠ ""
  sizes : ∀ v ∈ s.vars, v.size < 2 ^ 31
  images : ∀ p ∈ s.factors, ∀ f, s.heap[p]? = some f → ∀ q x, Valid (f.vars.group.map Var.size) q →
    f.findImage q = .ok x → tx.parse (tx.print x) = x ∧ Arith.lt x Arith.zero = false ∧
      (Arith.eq x Arith.zero = true → x = Arith.zero)
  weights : ∀ p ∈ s.factors, ∀ f, s.heap[p]? = some f → ∀ w, f.weight = some w → tx.parse (tx.print w) = w

/-- The first factor of a cluster with several factors has not the variables of a factor of another cluster. -/
def Unmistakable (s : State F) : Prop :=
  ∀ c ∈ s.tunableClusters, ∀ d ∈ s.tunableClusters, c ≠ d → ∀ (p q : Nat) (l : List Nat), c = p :: q :: l →
    ∀ p' ∈ d, ∀ f f', s.heap[p]? = some f → s.heap[p']? = some f' → ¬ f'.vars.group.Perm f.vars.group

/-- Also the constant factors, the tunable ones and the sharing of the weights are the same. The clusters, and the
factors in them, may come in another order. -/
structure SameSharing (s t : State F) (ρ : Var → Var) (r : Nat → Nat) : Prop extends SameModel s t ρ r where
  consts : t.consts.Perm (s.consts.map r)
  tunables : t.tunables.Perm (s.tunables.map r)
  clusters : ∃ l, l.Perm (s.tunableClusters.map (fun c => c.map r)) ∧ List.Forall₂ List.Perm t.tunableClusters l

end State
end EFG
