import Verif.Spec.Xml
import Verif.Spec.Text
import Verif.Spec.Prudent
/- Documents which can be imported, and what an import does to the model which receives it. -/

namespace EFG

/-- The number at the beginning of a text, after blanks and a sign, fits in an `int`. -/
def FitsInt (l : List Char) : Prop :=
  ∀ ws sign ds rest : List Char, l = ws ++ sign ++ ds ++ rest → (∀ c ∈ ws, Blank c) → sign.length ≤ 1 →
    (∀ c ∈ ds, c ∈ "0123456789".toList) → ds.foldl (fun x c => 10 * x + (c.toNat - '0'.toNat)) 0 < 2 ^ 31

namespace Json

/-- The text of a string, as the importer reads it, fits in an `int`. -/
def Fits (j : Json) : Prop := ∀ t, j.toStr = .ok t → FitsInt t

/-- If it is an object, the key is there. -/
def Has (j : Json) (key : String) : Prop := ∀ l, j = .obj l → ∃ x, j.tryAccess key = some x

/-- The keys which the importer does not look for are there, and the numbers are small enough. -/
structure Complete (j : Json) : Prop where
  hasVariables : j.Has "Variables"
  hasPotentials : j.Has "Potentials"
  numbers : ∀ vs, j.tryAccess "Variables" = some vs → ∀ v ∈ vs.items, ∀ k ∈ ["Size", "evidence"],
    ∀ x, v.tryAccess k = some x → x.Fits
  values : ∀ ps, j.tryAccess "Potentials" = some ps → ∀ p ∈ ps.items, ∀ d, p.tryAccess "Distr_val" = some d →
    ∀ e ∈ d.items, e.Has "v" ∧ ∀ v, e.tryAccess "v" = some v → ∀ x ∈ v.items, x.Fits

/-- All the variables have the size `n`. -/
def Uniform (n : Nat) (j : Json) : Prop :=
  ∀ vs, j.tryAccess "Variables" = some vs → ∀ v ∈ vs.items, ∀ x, v.tryAccess "Size" = some x →
    ∀ t, x.toStr = .ok t → Writes n t ∧ n < 2 ^ 31

end Json

namespace Tag

/-- The numbers are small enough, and the files with values have no blank lines. -/
structure Complete (files : List Char → Option (List Char)) (root : Tag) : Prop where
  numbers : ∀ t ∈ root.nestedOf "Variable", ∀ k ∈ ["Size", "evidence"], ∀ x, t.tryAttribute k = some x → FitsInt x
  values : ∀ t ∈ root.nestedOf "Potential", ∀ e ∈ t.nestedOf "Distr_val", ∀ x ∈ e.attributesOf "v", FitsInt x
  sources : ∀ t ∈ root.nestedOf "Potential", ∀ name, t.tryAttribute "Source" = some name →
    ∀ content, files name = some content → ∀ ls, HasLines ls content → ∀ l ∈ ls, ∀ ws, Spells ws l →
      ws ≠ [] ∧ ∀ w ∈ ws, FitsInt w

/-- All the variables have the size `n`. -/
def Uniform (n : Nat) (root : Tag) : Prop :=
  ∀ t ∈ root.nestedOf "Variable", ∀ x, t.tryAttribute "Size" = some x → Writes n x ∧ n < 2 ^ 31

end Tag

namespace State
variable {F : Type} [Arith F]

/-- `t` is `s` with something added: the functions are those of `s`, but for the weights of tunable factors, new
variables and new factors follow those of `s`, the clusters can only get new factors, and what was observed is
observed. -/
structure Extends (s t : State F) : Prop where
  heap : s.heap.length ≤ t.heap.length
  fns : ∀ p f, s.heap[p]? = some f →
    t.heap[p]? = some f ∨ (p ∈ s.tunables ∧ ∃ w, t.heap[p]? = some { f with weight := some w })
  vars : ∃ l, t.vars = s.vars ++ l
  factors : ∃ l, t.factors = s.factors ++ l ∧ ∀ p ∈ l, s.heap.length ≤ p
  consts : ∃ l, t.consts = s.consts ++ l ∧ ∀ p ∈ l, s.heap.length ≤ p
  tunables : ∃ l, t.tunables = s.tunables ++ l ∧ ∀ p ∈ l, s.heap.length ≤ p
  clusters : ∀ (i : Nat) c, s.tunableClusters[i]? = some c → ∃ l, t.tunableClusters[i]? = some (c ++ l)
  observed : ∀ v, s.Observes v → t.Observes v
  iterations : t.maxIter = s.maxIter

end State
end EFG
