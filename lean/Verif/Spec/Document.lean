import Verif.Spec.Import
/-
What a document says, and what it means that a model contains it.

`Json.Says` and `Tag.Says` give the meaning of the element of a document which describes a factor,
`State.Contains` says that a model has the factor which is described.
-/

namespace EFG

/-- The number which `static_cast<std::size_t>(std::atoi(...))` is expected to give for a text: blanks, a sign, digits,
and something which is not a digit. Negative numbers are taken modulo 2^64. -/
def Denotes (t : List Char) (n : Nat) : Prop :=
  ∃ ws sign ds rest : List Char, t = ws ++ sign ++ ds ++ rest ∧ (∀ c ∈ ws, Blank c) ∧
    (∀ c ∈ (sign ++ ds ++ rest).head?, ¬ Blank c) ∧
    (sign = ['-'] ∨ sign = ['+'] ∨ (sign = [] ∧ ∀ c ∈ (ds ++ rest).head?, c ≠ '-' ∧ c ≠ '+')) ∧
    (∀ c ∈ ds, c ∈ "0123456789".toList) ∧ (∀ c ∈ rest.head?, c ∉ "0123456789".toList) ∧
    ∃ v, ds.foldl (fun x c => 10 * x + (c.toNat - '0'.toNat)) 0 = v ∧
      if sign = ['-'] then v ≤ 2 ^ 31 ∧ ((0 < v ∧ n + v = 2 ^ 64) ∨ (n = 0 ∧ v = 0)) else n = v ∧ v < 2 ^ 31

/-- The images of a factor: 1 for equal values and 0 for the others, the opposite, or a list of combinations with the
text of their image, the others having the image 0. -/
inductive Shape where
  | equal
  | different
  | images (l : List (List Nat × List Char))

/-- A factor: the names of its variables, the images, the text of the weight, whether the weight can be tuned, and the
names of the variables of the factor with which it is shared. -/
structure Draft where
  names : List String
  shape : Shape
  weight : Option (List Char)
  tunable : Bool
  share : Option (List String)

namespace Json

/-- The text which the importer reads from a value. -/
def HasText (j : Json) (t : List Char) : Prop := ∃ s, j = .str s ∧ t = s.flatMap escapeChar

/-- The text of a key. -/
def Field (j : Json) (key : String) (t : List Char) : Prop := ∃ x, j.tryAccess key = some x ∧ x.HasText t

/-- A list of names. -/
def Names (j : Json) (l : List String) : Prop := List.Forall₂ (fun x (n : String) => x.HasText n.toList) j.items l

/-- One of the images. -/
def Image (j : Json) (e : List Nat × List Char) : Prop :=
  (∃ v, j.tryAccess "v" = some v ∧ List.Forall₂ (fun x n => ∃ t, x.HasText t ∧ Denotes t n) v.items e.1) ∧ j.Field "D" e.2

/-- The element of the document which describes a factor. -/
structure Says (j : Json) (d : Draft) : Prop where
  names : ∃ vs, j.tryAccess "Variables" = some vs ∧ vs.Names d.names
  shape : match d.shape with
    | .equal => j.Field "Correlation" ['T']
    | .different => j.Field "Correlation" ['F']
    | .images l => j.tryAccess "Correlation" = none ∧ ∃ v, j.tryAccess "Distr_val" = some v ∧ List.Forall₂ Image v.items l
  weight : match d.weight with
    | none => j.tryAccess "weight" = none
    | some t => j.Field "weight" t
  tunable : d.tunable = true ↔ d.weight.isSome ∧ j.Field "tunability" ['Y']
  share : match d.share with
    | none => d.tunable = true → j.tryAccess "Share" = none
    | some l => d.tunable = true ∧ ∃ v, j.tryAccess "Share" = some v ∧ v.Names l

/-- The element of the document which describes a variable. -/
def SaysVar (j : Json) (name : String) (size : Nat) : Prop :=
  j.Field "name" name.toList ∧ ∃ t, j.Field "Size" t ∧ Denotes t size

/-- It describes an observed variable. -/
def SaysObserved (j : Json) (name : String) (value : Nat) : Prop :=
  j.Field "name" name.toList ∧ ∃ t, j.Field "evidence" t ∧ Denotes t value

end Json

namespace Tag

/-- One of the images. -/
def Image (t : Tag) (e : List Nat × List Char) : Prop :=
  List.Forall₂ Denotes (t.attributesOf "v") e.1 ∧ t.tryAttribute "D" = some e.2

/-- The images in a file: a combination and the text of the image on each line. -/
def FileImages (content : List Char) (l : List (List Nat × List Char)) : Prop :=
  ∃ ls, HasLines ls content ∧
    List.Forall₂ (fun line e => ∃ ws, Spells (ws ++ [e.2]) line ∧ List.Forall₂ Denotes ws e.1) ls l

/-- The names in a tag. -/
def Names (t : Tag) (l : List String) : Prop := t.attributesOf "var" = l.map String.toList

/-- The tag which describes a factor. -/
structure Says (files : List Char → Option (List Char)) (t : Tag) (d : Draft) : Prop where
  names : t.Names d.names
  shape : match d.shape with
    | .equal => t.tryAttribute "Correlation" = some ['T']
    | .different => t.tryAttribute "Correlation" = some ['F']
    | .images l => t.tryAttribute "Correlation" = none ∧
      match t.tryAttribute "Source" with
      | none => List.Forall₂ Image (t.nestedOf "Distr_val") l
      | some name => ∃ content, files name = some content ∧ FileImages content l
  weight : d.weight = t.tryAttribute "weight"
  tunable : d.tunable = true ↔ d.weight.isSome ∧ t.tryAttribute "tunability" = some ['Y']
  share : match d.share with
    | none => d.tunable = true → t.nestedOf "Share" = []
    | some l => d.tunable = true ∧ ∃ sh rest, t.nestedOf "Share" = sh :: rest ∧ sh.Names l

/-- The tag which describes a variable. -/
def SaysVar (t : Tag) (name : String) (size : Nat) : Prop :=
  t.tryAttribute "name" = some name.toList ∧ ∃ x, t.tryAttribute "Size" = some x ∧ Denotes x size

/-- It describes an observed variable. -/
def SaysObserved (t : Tag) (name : String) (value : Nat) : Prop :=
  t.tryAttribute "name" = some name.toList ∧ ∃ x, t.tryAttribute "evidence" = some x ∧ Denotes x value

end Tag

/-- The elements describe the variables `l`, none of them twice, with a name and at least one value. -/
structure Declared {α : Type} (described : α → String → Nat → Prop) (elements : List α) (l : List (String × Nat)) : Prop where
  each : List.Forall₂ (fun x e => described x e.1 e.2) elements l
  once : l.Nodup
  proper : ∀ e ∈ l, e.1 ≠ "" ∧ 0 < e.2

variable {F : Type} [Arith F]

/-- The image which is drawn for a combination. -/
def Shape.Draws (tx : FloatText F) (q : List Nat) (x : F) : Shape → Prop
  | .equal => ((∀ i ∈ q, ∀ j ∈ q, i = j) ∧ x = Arith.one) ∨ ((¬ ∀ i ∈ q, ∀ j ∈ q, i = j) ∧ x = Arith.zero)
  | .different => ((∀ i ∈ q, ∀ j ∈ q, i = j) ∧ x = Arith.zero) ∨ ((¬ ∀ i ∈ q, ∀ j ∈ q, i = j) ∧ x = Arith.one)
  | .images l => (∃ before t after, l = before ++ (q, t) :: after ∧ (∀ e ∈ after, e.1 ≠ q) ∧ x = tx.parse t) ∨
      ((∀ e ∈ l, e.1 ≠ q) ∧ x = Arith.zero)

/-- The function is the one which is described, but for the weight. -/
structure Fn.Drawn (tx : FloatText F) (d : Draft) (f : Fn F) : Prop where
  names : f.vars.group.map Var.name = d.names
  images : ∀ q, Valid (f.vars.group.map Var.size) q → ∃ x, f.findImage q = .ok x ∧ d.shape.Draws tx q x

namespace State

/-- The factor `p` of the model is the one which is described. `said` are the names and the sizes of the variables which
are described, `inserts` tells whether the model can have tunable factors. A tunable factor which is not shared is the
first one of a cluster. A tunable factor which is shared is in the cluster of a factor on the given variables and has the
weight of the first factor of the cluster. -/
structure Contains (tx : FloatText F) (said : String → Nat → Prop) (inserts : Bool) (s : State F) (p : Nat) (d : Draft) :
    Prop where
  mem : p ∈ s.factors
  fn : ∃ f, s.heap[p]? = some f ∧ f.Drawn tx d ∧ (∀ v ∈ f.vars.group, v ∈ s.vars ∧ said v.name v.size) ∧
    (d.share = none ∨ inserts = false → f.weight = d.weight.map tx.parse)
  const : d.tunable = false ∨ inserts = false → p ∈ s.consts
  tunable : d.tunable = true → inserts = true → p ∈ s.tunables
  own : d.tunable = true → inserts = true → d.share = none → ∃ c ∈ s.tunableClusters, c.head? = some p
  shared : inserts = true → ∀ l, d.share = some l → ∃ c ∈ s.tunableClusters, p ∈ c ∧
    (∃ q ∈ c, q ≠ p ∧ ∃ f, s.heap[q]? = some f ∧ ∀ n, n ∈ f.vars.group.map Var.name ↔ n ∈ l) ∧
    ∃ q f g, c.head? = some q ∧ s.heap[q]? = some f ∧ s.heap[p]? = some g ∧ g.weight = f.weight

/-- The evidences are those of `s`, renewed by those which are described: the first one for each name. -/
structure Told (s t : State F) (said : List (String × Nat → Prop)) : Prop where
  told : ∀ before e after, said = before ++ e :: after → ∀ name k, e (name, k) → (∀ e' ∈ before, ∀ k', ¬ e' (name, k')) →
    ∃ v, v.name = name ∧ (v, k) ∈ t.evidences
  kept : ∀ v k, (v, k) ∈ s.evidences → (∀ e ∈ said, ∀ k', ¬ e (v.name, k')) → (v, k) ∈ t.evidences
  only : ∀ v k, (v, k) ∈ t.evidences → (v, k) ∈ s.evidences ∨ ∃ e ∈ said, e (v.name, k)

end State
end EFG
