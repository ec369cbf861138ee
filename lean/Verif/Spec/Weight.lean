import Mathlib.Algebra.BigOperators.Group.Finset.Basic
import Verif.Spec.Graph
import Verif.Spec.Sums
/-
The distribution described by a model: the product of the images of the accepted factors, and its sums
and maxima over the hidden variables.
-/

namespace EFG

/-- An assignment with the values of two variables exchanged. -/
def Assign.exchange (a : Assign) (u w : Var) : Assign := fun z => if z = u then a w else if z = w then a u else a z

namespace State
variable {K : Type} [Field K] [LinearOrder K]

/-- The assignment gives to every variable of the model one of its values. -/
def InRange (s : State (Ext K)) (a : Assign) : Prop := ∀ v ∈ s.vars, a v < v.size

/-- The assignment is in range and agrees with the evidences. -/
def Agrees (s : State (Ext K)) (a : Assign) : Prop := s.InRange a ∧ ∀ v k, (v, k) ∈ s.evidences → a v = k

/-- `φ p a` is the image of the accepted factor `p` at the assignment `a`, and is nonnegative. -/
def Images [Arith (Ext K)] (s : State (Ext K)) (φ : Nat → Assign → K) : Prop :=
  ∀ p ∈ s.factors, ∀ a, s.InRange a → ∃ f, s.heap[p]? = some f ∧
    f.findTransformed (f.vars.group.map a) = .ok (.val (φ p a)) ∧ 0 ≤ φ p a

/-- The product of all the factors. -/
def weight (s : State (Ext K)) (φ : Nat → Assign → K) (a : Assign) : K := (s.factors.map (fun p => φ p a)).prod

/-- The factors which join two hidden variables give the same image when the two values are exchanged. -/
def Symmetric (s : State (Ext K)) (φ : Nat → Assign → K) : Prop :=
  ∀ p u w, s.FactorOn p [u, w] → s.Hidden u → s.Hidden w → ∀ a, s.InRange a → φ p (a.exchange u w) = φ p a

open Classical in
/-- The assignment at which the library reads the factor `p`: the values are exchanged if the factor joins
two hidden variables. -/
noncomputable def readAt (s : State (Ext K)) (p : Nat) (a : Assign) : Assign :=
  match s.heap[p]? with
  | some f =>
    match f.vars.group with
    | [u, w] => if s.Hidden u ∧ s.Hidden w then a.exchange u w else a
    | _ => a
  | none => a

/-- The product of all the factors, as the library reads them. -/
noncomputable def readWeight (s : State (Ext K)) (φ : Nat → Assign → K) (a : Assign) : K :=
  (s.factors.map (fun p => φ p (s.readAt p a))).prod

open Classical in
/-- The assignment at which the library reads the factor `p` for a joint distribution of the variables `G`: the
values are exchanged if the factor joins two hidden variables which are not both in `G`. -/
noncomputable def readAtIn (s : State (Ext K)) (G : List Var) (p : Nat) (a : Assign) : Assign :=
  match s.heap[p]? with
  | some f =>
    match f.vars.group with
    | [u, w] => if (s.Hidden u ∧ s.Hidden w) ∧ ¬(u ∈ G ∧ w ∈ G) then a.exchange u w else a
    | _ => a
  | none => a

/-- The product of all the factors, as the library reads them for a joint distribution of the variables `G`. -/
noncomputable def readWeightIn (s : State (Ext K)) (G : List Var) (φ : Nat → Assign → K) (a : Assign) : K :=
  (s.factors.map (fun p => φ p (s.readAtIn G p a))).prod

/-- The hidden variables other than `v`. -/
def Others (s : State (Ext K)) (v : Var) (l : List Var) : Prop := l.Nodup ∧ ∀ w, w ∈ l ↔ s.Hidden w ∧ w ≠ v

/-- No cycle goes through the variables linked to `v`. -/
def TreeAt (s : State (Ext K)) (v : Var) : Prop :=
  ∀ u, s.Linked v u → ∀ c : s.hiddenGraph.Walk u u, ¬ c.IsCycle

/-- The sum of the weights `ω` of the assignments which give the value `i` to `v` and agree with `e` on the
variables which are not summed. -/
def mass (ω : Assign → K) (l : List Var) (e : Assign) (v : Var) (i : Nat) : K :=
  Tree.sumOver Var.size l ω (Function.update e v i)

/-- The distribution of `v` which the weights `ω` describe. -/
def distribution (ω : Assign → K) (l : List Var) (e : Assign) (v : Var) : List K :=
  (List.range v.size).map (fun i => mass ω l e v i / ((List.range v.size).map (mass ω l e v)).sum)

/-- A most probable assignment of the hidden variables given the evidences. -/
def MostProbable (s : State (Ext K)) (ω : Assign → K) (a : Assign) : Prop :=
  s.Agrees a ∧ ∀ b, s.Agrees b → ω b ≤ ω a

/-- The images of the factors which join two hidden variables are not below `c`. -/
def AtLeast (s : State (Ext K)) (φ : Nat → Assign → K) (c : K) : Prop :=
  ∀ p u w, s.FactorOn p [u, w] → s.Hidden u → s.Hidden w → ∀ a, s.InRange a → c ≤ φ p a

/-- The images of the factors which join two hidden variables are not below the smallest positive normal number. -/
def Floored [FloatParams K] (s : State (Ext K)) (φ : Nat → Assign → K) : Prop := s.AtLeast φ FloatParams.minK

end State
end EFG
