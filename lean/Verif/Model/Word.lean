import Verif.Model.Factor
/-
The operations of factor/Function.cpp on `std::size_t`, which has `N` values (2^64 on the usual platforms): the results
are taken modulo `N`. The rest of the model computes with natural numbers; C60 says when the two agree.
-/

namespace EFG

/-- `Group::size` (categoric/Group.cpp:60-66). -/
def Group.sizeW (N : Nat) (g : Group) : Nat := g.group.foldl (fun s v => s * v.size % N) (1 % N)

namespace Fn
variable {F : Type u}

/-- `sizes_prod` (factor/Function.cpp:14-20). -/
def sizesProdW (N : Nat) (sizes : List Nat) : Nat := sizes.foldl (fun r v => r * v % N) (1 % N)

/-- `Function::Function` with `make_info` (factor/Function.cpp:30-47). `half` is `compute_critical_size`
(factor/Function.cpp:22-25), which multiplies by `0.5f`, with whatever rounding. -/
def ofGroupW (N : Nat) (half : Nat → Nat) (g : Group) : Fn F :=
  { vars := g
    sizes := g.sizes
    tot := sizesProdW N g.sizes
    crit := max (half (sizesProdW N g.sizes)) minCritical
    data := .sparse []
    weight := none }

/-- The loop of `CombinationHasher::operator()` (factor/Function.cpp:53-56), as `hashLoop`. -/
def hashLoopW (N : Nat) : List Nat → List Nat → Nat → Nat → Res Nat
  | [], _, _, res => .ok res
  | _ :: _, [], _, _ => .ub
  | s :: ss, c :: cs, prod, res =>
    if s = 0 then .ub else hashLoopW N ss cs (prod / s) ((res + c * (prod / s) % N) % N)

/-- `CombinationHasher::operator()` (factor/Function.cpp:49-58). -/
def hashW (N : Nat) (f : Fn F) (comb : List Nat) : Res Nat := hashLoopW N f.sizes comb f.tot 0

variable [Arith F]

/-- One round of the loop of factor/Function.cpp:70-73. -/
def densifyStepW (N : Nat) (f : Fn F) (v : List F) (e : List Nat × F) : Res (List F) :=
  match f.hashW N e.1 with
  | .ok i => vecSet v i e.2
  | .throw => .throw
  | .ub => .ub

/-- The conversion from sparse to dense (factor/Function.cpp:65-76). -/
def densifyW (N : Nat) (f : Fn F) (c : List (List Nat × F)) : Res (List F) :=
  Res.foldList (f.densifyStepW N) (List.replicate f.tot Arith.zero) c

/-- `Function::set` (factor/Function.cpp:60-82). -/
def setW (N : Nat) (f : Fn F) (comb : List Nat) (img : F) : Res (Fn F) :=
  match f.hashW N comb with
  | .ok i =>
    match f.data with
    | .sparse c =>
      let c' := sparseSet c comb img
      if f.crit ≤ c'.length then
        match f.densifyW N c' with
        | .ok v => .ok { f with data := .dense v }
        | .throw => .throw
        | .ub => .ub
      else .ok { f with data := .sparse c' }
    | .dense v =>
      match vecSet v i img with
      | .ok v' => .ok { f with data := .dense v' }
      | .throw => .throw
      | .ub => .ub
  | .throw => .throw
  | .ub => .ub

/-- `Function::findImage` (factor/Function.cpp:84-100). -/
def findImageW (N : Nat) (f : Fn F) (comb : List Nat) : Res F :=
  match f.hashW N comb with
  | .ok i =>
    match f.data with
    | .sparse c =>
      match sparseFind c comb with
      | some x => .ok x
      | none => .ok Arith.zero
    | .dense v => vecGet v i
  | .throw => .throw
  | .ub => .ub

/-- `Mutable::set` (factor/Mutable.cpp:18-32). -/
def mutableSetW (N : Nat) (comb : List Nat) (value : F) : M (Fn F) Unit := fun f =>
  if Arith.lt value Arith.zero then .throw f
  else if !validComb f.vars.group comb then .throw f
  else match f.setW N comb value with
    | .ok f' => .ok f' ()
    | .throw => .throw f
    | .ub => .ub

/-- One round of the loop of factor/Factor.cpp:104-106. -/
def antiStepW (N : Nat) (f : Fn F) (n : Nat) (imgs : List F) (k : Nat) : Res (List F) :=
  match f.hashW N (sameValues n k) with
  | .ok i => vecSet imgs i Arith.zero
  | .throw => .throw
  | .ub => .ub

/-- `SimplyAntiCorrelatedFunction` (factor/Factor.cpp:87-109). -/
def antiCorrelatedW (N : Nat) (half : Nat → Nat) (g : Group) : Res (Fn F) :=
  if g.group.length = 1 then .throw
  else match checkAllSameSize g.group with
    | .ok _ =>
      match g.group with
      | [] => .ub
      | v :: _ =>
        let f : Fn F := ofGroupW N half g
        match Res.foldList (antiStepW N f g.group.length) (List.replicate f.tot Arith.one)
            (List.range v.size) with
        | .ok imgs => .ok { f with data := .dense imgs }
        | .throw => .throw
        | .ub => .ub
    | .throw => .throw
    | .ub => .ub

end Fn
end EFG
