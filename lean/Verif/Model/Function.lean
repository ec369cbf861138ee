import Verif.Model.Arith
import Verif.Model.Range
/-
Discrete functions: factor/Function.{h,cpp}, factor/Mutable.cpp, factor/Immutable.cpp,
factor/ImageFinder.{h,cpp}.
-/

namespace EFG

/-- `std::variant<SparseContainer, DenseContainer>` (factor/Function.h:126-133). The sparse container
is an association list with distinct keys; its order stands for the iteration order of the hash map. -/
inductive Store (F : Type u) where
  | sparse (c : List (List Nat × F))
  | dense (c : List F)
deriving DecidableEq, Repr

/-- `Function` (factor/Function.h:17-134) together with its subclass `ExponentialFunction`
(factor/FactorExponential.cpp:20-39): `weight` is `none` for a plain function (identity transform)
and the weight for an exponential one. `sizes`, `tot` and `crit` are the shared constant `Info`
(factor/Function.h:95-102). -/
structure Fn (F : Type u) where
  vars : Group
  sizes : List Nat
  tot : Nat
  crit : Nat
  data : Store F
  weight : Option F
deriving Repr

namespace Fn
variable {F : Type u}

/-- `MIN_CRITICAL` (factor/Function.cpp:27). -/
def minCritical : Nat := 6

/-- `sizes_prod` (factor/Function.cpp:14-20). -/
def sizesProd (sizes : List Nat) : Nat := sizes.foldl (· * ·) 1

/-- `critical_size` (factor/Function.cpp:22-25, 36-37). The C++ code multiplies by `0.5f` and takes
the floor; rounding of very large products (above 2^24) is not modelled. No theorem relies on the
value. -/
def criticalSize (tot : Nat) : Nat := max (tot / 2) minCritical

/-- `Function::Function` (factor/Function.cpp:45-47) with `make_info` (factor/Function.cpp:30-39). -/
def ofGroup (g : Group) : Fn F :=
  { vars := g
    sizes := g.sizes
    tot := sizesProd g.sizes
    crit := criticalSize (sizesProd g.sizes)
    data := .sparse []
    weight := none }

/-- The loop of `CombinationHasher::operator()` (factor/Function.cpp:53-56) from some position on,
with the current `prod` and `res`. Reading past the combination, or dividing by a null size, is
undefined behaviour. -/
def hashLoop : List Nat → List Nat → Nat → Nat → Res Nat
  | [], _, _, res => .ok res
  | _ :: _, [], _, _ => .ub
  | s :: ss, c :: cs, prod, res =>
    if s = 0 then .ub else hashLoop ss cs (prod / s) (res + c * (prod / s))

/-- `CombinationHasher::operator()` (factor/Function.cpp:49-58). -/
def hash (f : Fn F) (comb : List Nat) : Res Nat := hashLoop f.sizes comb f.tot 0

/-- `find` in the sparse container. -/
def sparseFind (c : List (List Nat × F)) (comb : List Nat) : Option F :=
  match c.find? (fun e => e.1 == comb) with
  | some e => some e.2
  | none => none

/-- `c[comb] = image` on the sparse container. -/
def sparseSet (c : List (List Nat × F)) (comb : List Nat) (img : F) : List (List Nat × F) :=
  if c.any (fun e => e.1 == comb) then
    c.map (fun e => if e.1 == comb then (comb, img) else e)
  else c ++ [(comb, img)]

/-- Writing `v[i] = x` in a `std::vector`. -/
def vecSet (v : List F) (i : Nat) (x : F) : Res (List F) :=
  if i < v.length then .ok (v.set i x) else .ub

/-- Reading `v[i]` from a `std::vector`. -/
def vecGet (v : List F) (i : Nat) : Res F := Res.ofOption v[i]?

variable [Arith F]

/-- One round of the loop of factor/Function.cpp:70-73. -/
def densifyStep (f : Fn F) (v : List F) (e : List Nat × F) : Res (List F) :=
  match f.hash e.1 with
  | .ok i => vecSet v i e.2
  | .throw => .throw
  | .ub => .ub

/-- The conversion from sparse to dense (factor/Function.cpp:65-76). -/
def densify (f : Fn F) (c : List (List Nat × F)) : Res (List F) :=
  Res.foldList f.densifyStep (List.replicate f.tot Arith.zero) c

/-- `Function::set` (factor/Function.cpp:60-82). No check is made on the combination. The hash of the
combination is computed in both branches. -/
def set (f : Fn F) (comb : List Nat) (img : F) : Res (Fn F) :=
  match f.hash comb with
  | .ok i =>
    match f.data with
    | .sparse c =>
      let c' := sparseSet c comb img
      if f.crit ≤ c'.length then
        match f.densify c' with
        | .ok v => .ok { f with data := .dense v }
        | .throw => .throw
        | .ub => .ub
      else .ok { f with data := .sparse c' }
    | .dense v =>
      match vecSet v i img with
      | .ok v' => .ok { f with data := .dense v' }
      | .throw => .throw
      | .ub => .ub
  | .throw => .throw
  | .ub => .ub

/-- `Function::findImage` (factor/Function.cpp:84-100). -/
def findImage (f : Fn F) (comb : List Nat) : Res F :=
  match f.hash comb with
  | .ok i =>
    match f.data with
    | .sparse c =>
      match sparseFind c comb with
      | some x => .ok x
      | none => .ok Arith.zero
    | .dense v => vecGet v i
  | .throw => .throw
  | .ub => .ub

/-- `Function::transform` (factor/Function.h:124) and its override
`ExponentialFunction::transform` (factor/FactorExponential.cpp:35). -/
def transform (f : Fn F) (x : F) : F :=
  match f.weight with
  | none => x
  | some w => Arith.exp (Arith.mul w x)

/-- `Function::findTransformed` (factor/Function.cpp:102-106). -/
def findTransformed (f : Fn F) (comb : List Nat) : Res F :=
  match f.findImage comb with
  | .ok x => .ok (f.transform x)
  | .throw => .throw
  | .ub => .ub

/-- `Function::clear` (factor/Function.h:31). -/
def clear (f : Fn F) : Fn F := { f with data := .sparse [] }

/-- `Function::cloneImages` (factor/Function.h:23). -/
def cloneImages (f o : Fn F) : Fn F := { f with data := o.data }

/-- Pairs the combinations with the elements of the dense container, incrementing the iterator at
each step (factor/Function.h:50-59); dereferencing the end is undefined behaviour. -/
def zipDense : List (List Nat) → List F → Res (List (List Nat × F))
  | [], _ => .ok []
  | _ :: _, [] => .ub
  | c :: cs, x :: xs =>
    match zipDense cs xs with
    | .ok l => .ok ((c, x) :: l)
    | .throw => .throw
    | .ub => .ub

/-- `forEachCombination<false>` (factor/Function.h:33-62): the list of (combination, raw image) pairs
handed to the predicate, in order. -/
def rawEntries (f : Fn F) : Res (List (List Nat × F)) :=
  match GroupRange.visit f.sizes with
  | .ok combs =>
    match f.data with
    | .sparse c =>
      Res.mapList (fun comb => match f.hash comb with
        | .ok _ => .ok (comb, match sparseFind c comb with
          | some x => x
          | none => Arith.zero)
        | .throw => .throw
        | .ub => .ub) combs
    | .dense v => zipDense combs v
  | .throw => .throw
  | .ub => .ub

/-- `forEachCombination<true>` (factor/Function.h:33-62). -/
def entries (f : Fn F) : Res (List (List Nat × F)) :=
  match f.rawEntries with
  | .ok l => .ok (l.map (fun e => (e.1, f.transform e.2)))
  | .throw => .throw
  | .ub => .ub

/-- The images visited by `forEachCombination<true>`. -/
def images (f : Fn F) : Res (List F) :=
  match f.entries with
  | .ok l => .ok (l.map Prod.snd)
  | .throw => .throw
  | .ub => .ub

/-- `forEachNonNullCombination` (factor/Function.h:64-93): raw images (`useTransformed = false`) or
transformed ones. -/
def nonNullEntries (f : Fn F) (useTransformed : Bool) : Res (List (List Nat × F)) :=
  let tr := fun (e : List Nat × F) => (e.1, if useTransformed then f.transform e.2 else e.2)
  match f.data with
  | .sparse c => .ok (c.map tr)
  | .dense v =>
    match GroupRange.visit f.sizes with
    | .ok combs =>
      match zipDense combs v with
      | .ok l => .ok ((l.filter (fun e => !Arith.eq e.2 Arith.zero)).map tr)
      | .throw => .throw
      | .ub => .ub
    | .throw => .throw
    | .ub => .ub

/-- The checks of `Mutable::set` on the combination (factor/Mutable.cpp:22-30). -/
def validComb : List Var → List Nat → Bool
  | [], [] => true
  | v :: vs, c :: cs => !(decide (v.size ≤ c)) && validComb vs cs
  | _, _ => false

/-- `Mutable::set` (factor/Mutable.cpp:18-32). -/
def mutableSet (comb : List Nat) (value : F) : M (Fn F) Unit := fun f =>
  if Arith.lt value Arith.zero then .throw f
  else if !validComb f.vars.group comb then .throw f
  else match f.set comb value with
    | .ok f' => .ok f' ()
    | .throw => .throw f
    | .ub => .ub

/-- `Mutable::replaceVariables` (factor/Mutable.h:38-40): replaces the group of the function. -/
def replaceVariables (newVars : List Var) : M (Fn F) Unit := fun f =>
  match Group.replaceVariables newVars f.vars with
  | .ok g _ => .ok { f with vars := g } ()
  | .throw g => .throw { f with vars := g }
  | .ub => .ub

/-- `Immutable::getProbabilities` (factor/Immutable.cpp:19-42). -/
def probabilities (f : Fn F) : Res (List F) :=
  match f.images with
  | .ok probs =>
    let s := Arith.sum probs
    if Arith.eq s Arith.zero then
      .ok (probs.map (fun _ => Arith.div Arith.one (Arith.ofNat probs.length)))
    else .ok (probs.map (fun x => Arith.div x s))
  | .throw => .throw
  | .ub => .ub

end Fn

/-- `ImageFinder` (factor/ImageFinder.h:22-52): a function and the positions of its variables in a bigger
group. -/
structure Finder (F : Type u) where
  fn : Fn F
  indices : List Nat

namespace Finder
variable {F : Type u}

/-- `find_var` (factor/ImageFinder.cpp:15-24): comparison by pointer, first match. -/
def findVar (bigger : List Var) (v : Var) : Option Nat := bigger.findIdx? (fun w => w = v)

/-- `get_indices` (factor/ImageFinder.cpp:26-44). -/
def getIndices (group bigger : List Var) : Res (List Nat) :=
  if bigger.length < group.length then .throw
  else Res.mapList (fun v => match findVar bigger v with
    | some k => .ok k
    | none => .throw) group

/-- `Immutable::makeFinder` (factor/Immutable.cpp:44-47). -/
def make (f : Fn F) (bigger : List Var) : Res (Finder F) :=
  match getIndices f.vars.group bigger with
  | .ok is => .ok ⟨f, is⟩
  | .throw => .throw
  | .ub => .ub

/-- `extractSmallerCombination` (factor/ImageFinder.cpp:53-61). -/
def extract (fd : Finder F) (comb : List Nat) : Res (List Nat) :=
  Res.mapList (fun i => Res.ofOption comb[i]?) fd.indices

variable [Arith F]

/-- `ImageFinder::findTransformed` (factor/ImageFinder.h:31-37). -/
def findTransformed (fd : Finder F) (comb : List Nat) : Res F :=
  match fd.extract comb with
  | .ok c => fd.fn.findTransformed c
  | .throw => .throw
  | .ub => .ub

/-- `ImageFinder::findImage` (factor/ImageFinder.h:31-37). -/
def findImage (fd : Finder F) (comb : List Nat) : Res F :=
  match fd.extract comb with
  | .ok c => fd.fn.findImage c
  | .throw => .throw
  | .ub => .ub

end Finder
end EFG
