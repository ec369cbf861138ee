import Verif.Model.Factor
/-
The special unary factors used for propagating the belief: structure/SpecialFactors.{h,cpp}.
-/

namespace EFG

/-- `PropagationKind` (structure/Types.h:53). -/
inductive Kind where
  | sum
  | map
deriving DecidableEq, Repr

namespace Fn
variable {F : Type u} [Arith F]

/-- `UnaryFactor::variable`, set to `front()` of the group by the constructor
(structure/SpecialFactors.cpp:16-21). -/
def frontVar (f : Fn F) : Res Var := Res.ofOption f.vars.group.head?

/-- `MergedUnaries(const VariablePtr &)` (structure/SpecialFactors.cpp:66-67) with the constructor of
`MergableFunction` (structure/SpecialFactors.cpp:36-44): all ones, dense. -/
def ones (v : Var) : Fn F :=
  { (ofGroup (Group.single v) : Fn F) with data := .dense (List.replicate v.size Arith.one) }

/-- `MergableFunction::merge` (structure/SpecialFactors.cpp:46-52) on the stored vector: multiplies
each element by the corresponding image; writing past the end is undefined behaviour. -/
def mulVec : List F → List F → Res (List F)
  | xs, [] => .ok xs
  | [], _ :: _ => .ub
  | x :: xs, y :: ys =>
    match mulVec xs ys with
    | .ok l => .ok (Arith.mul x y :: l)
    | .throw => .throw
    | .ub => .ub

/-- `MergableFunction::normalize` (structure/SpecialFactors.cpp:54-59) on the stored vector. -/
def normalizeVec (xs : List F) : Res (List F) :=
  match Arith.maxElement xs with
  | .ok m => .ok (xs.map (fun x => Arith.mul x (Arith.div Arith.one m)))
  | .throw => .throw
  | .ub => .ub

/-- `MergedUnaries::merge` (structure/SpecialFactors.cpp:78-87) on the vector stored for the variable
`v`. -/
def mergeInto (v : Var) (xs : List F) (toMerge : Fn F) : Res (List F) :=
  match toMerge.vars.group with
  | [w] =>
    if w ≠ v then .throw
    else match toMerge.images with
      | .ok ys => mulVec xs ys
      | .throw => .throw
      | .ub => .ub
  | _ => .throw

/-- `MergedUnaries(const std::vector<const Immutable *> &)` (structure/SpecialFactors.cpp:69-76). The
pointers have already been followed; `front()` of an empty vector is undefined. -/
def mergedUnaries (factors : List (Fn F)) : Res (Fn F) :=
  match factors with
  | [] => .ub
  | f :: _ =>
    match f.frontVar with
    | .ok v =>
      match Res.foldList (mergeInto v) (List.replicate v.size Arith.one) factors with
      | .ok xs =>
        match normalizeVec xs with
        | .ok ys => .ok { (ones v : Fn F) with data := .dense ys }
        | .throw => .throw
        | .ub => .ub
      | .throw => .throw
      | .ub => .ub
    | .throw => .throw
    | .ub => .ub

/-- `UnaryFactor::diff` (structure/SpecialFactors.cpp:23-31): sum of the absolute differences of the
probabilities; reading past the second vector is undefined behaviour. -/
def diffLoop : F → List F → List F → Res F
  | res, [], _ => .ok res
  | _, _ :: _, [] => .ub
  | res, x :: xs, y :: ys => diffLoop (Arith.add res (Arith.abs (Arith.sub x y))) xs ys

def diff (f o : Fn F) : Res F :=
  match f.probabilities with
  | .ok ps =>
    match o.probabilities with
    | .ok qs => diffLoop Arith.zero ps qs
    | .throw => .throw
    | .ub => .ub
  | .throw => .throw
  | .ub => .ub

/-- `get_other_var` (structure/SpecialFactors.cpp:94-101). -/
def otherVar (b : Fn F) (v : Var) : Res Var :=
  match b.vars.group with
  | [x, y] => .ok (if x = v then y else x)
  | _ => .throw

/-- `get_positions` (structure/SpecialFactors.cpp:103-113): positions of the given variable and of the
other one; `back()` of an empty vector is undefined. -/
def positions (b : Fn F) (v : Var) : Res (Nat × Nat) :=
  match b.vars.group.getLast? with
  | some w => .ok (if w = v then (1, 0) else (0, 1))
  | none => .ub

/-- One round of the visit of structure/SpecialFactors.cpp:125-130. -/
def evidenceStep (posEvidence posHidden value : Nat) (r : Fn F) (e : List Nat × F) : Res (Fn F) :=
  match e.1[posEvidence]?, e.1[posHidden]? with
  | some x, some h => if x = value then r.set [h] e.2 else .ok r
  | _, _ => .ub

/-- `Evidence::Evidence` (structure/SpecialFactors.cpp:116-131). -/
def evidence (b : Fn F) (evidenceVar : Var) (value : Nat) : Res (Fn F) :=
  match b.otherVar evidenceVar with
  | .ok hidden =>
    match b.positions hidden with
    | .ok (posHidden, posEvidence) =>
      match b.entries with
      | .ok es =>
        Res.foldList (evidenceStep posEvidence posHidden value) (ofGroup (Group.single hidden)) es
      | .throw => .throw
      | .ub => .ub
    | .throw => .throw
    | .ub => .ub
  | .throw => .throw
  | .ub => .ub

/-- `Indicator::Indicator` (structure/SpecialFactors.cpp:133-139). -/
def indicator (v : Var) (value : Nat) : Res (Fn F) :=
  if v.size ≤ value then .throw
  else set (ofGroup (Group.single v)) [value] Arith.one

/-- The two reducers: start value (structure/SpecialFactors.cpp:171-174, 182-185). -/
def reduceInit : Kind → F
  | .sum => Arith.zero
  | .map => Arith.fltMin

/-- The two reducers: update. -/
def reduceStep : Kind → F → F → F
  | .sum => Arith.add
  | .map => Arith.max2

/-- The combination built in structure/SpecialFactors.cpp:155-158: two entries, first the one at
`senderPos`, then the one at `messagePos`. -/
def binaryComb (senderPos messagePos s r : Nat) : List Nat :=
  (([0, 0] : List Nat).set senderPos s).set messagePos r

/-- One round of the inner visit of `fill_message` (structure/SpecialFactors.cpp:154-161). -/
def messageValueStep (kind : Kind) (b : Fn F) (senderPos messagePos r : Nat) (acc : F)
    (e : List Nat × F) : Res F :=
  match e.1.head? with
  | some s =>
    match b.findTransformed (binaryComb senderPos messagePos s r) with
    | .ok x => .ok (reduceStep kind acc (Arith.mul e.2 x))
    | .throw => .throw
    | .ub => .ub
  | none => .ub

/-- The inner loop of `fill_message` (structure/SpecialFactors.cpp:152-161) for one `r`. -/
def messageValue (kind : Kind) (b : Fn F) (senderPos messagePos r : Nat)
    (sender : List (List Nat × F)) : Res F :=
  Res.foldList (messageValueStep kind b senderPos messagePos r) (reduceInit kind) sender

/-- One round of the outer loop of `fill_message` (structure/SpecialFactors.cpp:151-163). -/
def messageStep (kind : Kind) (b : Fn F) (senderPos messagePos : Nat)
    (sender : List (List Nat × F)) (m : Fn F) (r : Nat) : Res (Fn F) :=
  match messageValue kind b senderPos messagePos r sender with
  | .ok x => m.set [r] x
  | .throw => .throw
  | .ub => .ub

/-- `MessageSUM` and `MessageMAP` (structure/SpecialFactors.cpp:167-187) with `fill_message`
(structure/SpecialFactors.cpp:142-164). As in the source, `get_positions` is called with the variable
of the sender and its first result is used as `message_pos`. -/
def message (kind : Kind) (mergedSender b : Fn F) : Res (Fn F) :=
  match mergedSender.frontVar with
  | .ok senderVar =>
    match b.otherVar senderVar with
    | .ok receiver =>
      match b.positions senderVar with
      | .ok (messagePos, senderPos) =>
        match b.vars.group[messagePos]? with
        | some v =>
          match mergedSender.entries with
          | .ok es =>
            Res.foldList (messageStep kind b senderPos messagePos es)
              (ofGroup (Group.single receiver)) (List.range v.size)
          | .throw => .throw
          | .ub => .ub
        | none => .ub
      | .throw => .throw
      | .ub => .ub
    | .throw => .throw
    | .ub => .ub
  | .throw => .throw
  | .ub => .ub

end Fn
end EFG
