import Verif.Spec.Models
import Verif.Model.Json
/- What it means that an imported model is the exported one, and which models survive the trip. -/

namespace EFG
variable {F : Type} [Arith F]

/-- The characters which json does not escape. -/
def Plain (c : Char) : Prop := c ≠ '"' ∧ c ≠ '\\' ∧ 32 ≤ c.toNat

instance (c : Char) : Decidable (Plain c) := by unfold Plain; infer_instance

/-- A number which is read as it was printed. -/
def Legible (tx : FloatText F) (x : F) : Prop := (∀ c ∈ tx.print x, Plain c) ∧ tx.parse (tx.print x) = x

/-- The same factor on other variables: the same weight and the same images. -/
def SameFactor (ρ : Var → Var) (f g : Fn F) : Prop :=
  g.vars.group = f.vars.group.map ρ ∧ g.weight = f.weight ∧
    ∀ q, Valid (f.vars.group.map Var.size) q → g.findImage q = f.findImage q ∧ g.findTransformed q = f.findTransformed q

namespace State

/-- Names without escaped characters, sizes which fit in an `int`, images and weights which are read as they
were printed. -/
structure Portable (tx : FloatText F) (s : State F) : Prop where
  names : ∀ v ∈ s.vars, v.name ≠ "" ∧ ∀ c ∈ v.name.toList, Plain c
  sizes : ∀ v ∈ s.vars, v.size < 2 ^ 31
  images : ∀ p ∈ s.factors, ∀ f, s.heap[p]? = some f → ∀ q x, Valid (f.vars.group.map Var.size) q →
    f.findImage q = .ok x → Legible tx x ∧ Arith.lt x Arith.zero = false ∧ (Arith.eq x Arith.zero = true → x = Arith.zero)
  weights : ∀ p ∈ s.factors, ∀ f, s.heap[p]? = some f → ∀ w, f.weight = some w → Legible tx w

/-- `t` has the variables of `s` with other addresses, the same evidences and the same factors; the factor `p`
of `s` is the factor `r p` of `t`. -/
structure SameModel (s t : State F) (ρ : Var → Var) (r : Nat → Nat) : Prop where
  named : ∀ v ∈ s.vars, (ρ v).name = v.name ∧ (ρ v).size = v.size
  apart : ∀ u ∈ s.vars, ∀ v ∈ s.vars, ρ u = ρ v → u = v
  vars : ∀ w, w ∈ t.vars ↔ ∃ v ∈ s.vars, ρ v = w
  evidences : t.evidences.Perm (s.evidences.map (fun e => (ρ e.1, e.2)))
  factors : t.factors.Perm (s.factors.map r)
  once : ∀ p ∈ s.factors, ∀ q ∈ s.factors, r p = r q → p = q
  images : ∀ p ∈ s.factors, ∃ f g, s.heap[p]? = some f ∧ t.heap[r p]? = some g ∧ SameFactor ρ f g

/-- Also the constant factors, the tunable ones and the sharing of the weights are the same. -/
structure SameField (s t : State F) (ρ : Var → Var) (r : Nat → Nat) : Prop extends SameModel s t ρ r where
  consts : t.consts.Perm (s.consts.map r)
  tunables : t.tunables.Perm (s.tunables.map r)
  clusters : t.tunableClusters = s.tunableClusters.map (fun c => c.map r)

end State

/-- The orders are permutations and every new variable has its own address. -/
structure ImportOrder.Fair (o : ImportOrder) : Prop where
  fresh : ∀ i j, o.fresh i = o.fresh j → i = j
  found : ∀ l, (o.found l).Perm l
  evidences : ∀ l, (o.evidences l).Perm l
  vars : ∀ l, (o.vars l).Perm l

end EFG
