import Verif.Model.Text
import Verif.Props.Examples
/-
The unit tests of the repository about ranges, functions and factors, run on the model in rational arithmetic. These
examples prove no property: they check that the model gives what the tests of the repository expect of the code. In
this arithmetic `exp x` is `1 + x²`, and the tests are stated with `exp`.
-/

namespace EFG.UnitTests

/-- Variables with their own addresses. -/
def var (addr size : Nat) (name : String) : Var := ⟨addr, name, size⟩

/-- `make_group` (tests/Utils.cpp:19-29). -/
def makeGroup (sizes : List Nat) : Group :=
  let vs := sizes.zipIdx.map (fun e => var (100 + e.2) e.1 ("V" ++ toString e.2))
  ⟨vs, vs⟩

/-- A factor with some images set, or nothing if one is refused. -/
def setAll (f : Fn (Ext ℚ)) : List (List Nat × ℚ) → Option (Fn (Ext ℚ))
  | [] => some f
  | e :: l =>
    match Fn.mutableSet e.1 (.val e.2) f with
    | .ok f' _ => setAll f' l
    | _ => none

def found (f : Option (Fn (Ext ℚ))) (c : List Nat) : Option (Ext ℚ) :=
  match f with
  | some g =>
    match g.findImage c with
    | .ok x => some x
    | _ => none
  | none => none

def exp (x : ℚ) : ℚ := FloatParams.expK x

/-- tests/Test01-Range.cpp:35-40 -/
example : GroupRange.visit [2, 2] = .ok [[0, 0], [0, 1], [1, 0], [1, 1]] := by decide +kernel

/-- tests/Test01-Range.cpp:42-57 -/
example : GroupRange.visit [3, 4] = .ok [[0, 0], [0, 1], [0, 2], [0, 3], [1, 0], [1, 1], [1, 2], [1, 3], [2, 0],
    [2, 1], [2, 2], [2, 3]] := by decide +kernel

/-- tests/Test01-Range.cpp:59-69 -/
example : GroupRange.visit [3, 4, 2] = .ok [[0, 0, 0], [0, 0, 1], [0, 1, 0], [0, 1, 1], [0, 2, 0], [0, 2, 1],
    [0, 3, 0], [0, 3, 1], [1, 0, 0], [1, 0, 1], [1, 1, 0], [1, 1, 1], [1, 2, 0], [1, 2, 1], [1, 3, 0], [1, 3, 1],
    [2, 0, 0], [2, 0, 1], [2, 1, 0], [2, 1, 1], [2, 2, 0], [2, 2, 1], [2, 3, 0], [2, 3, 1]] := by decide +kernel

/-- tests/Test02-Function-a.cpp:18-28 -/
example : ∀ k < 4, (Fn.ofGroup (makeGroup [4]) : Fn (Ext ℚ)).hash [k] = .ok k := by decide +kernel

/-- tests/Test02-Function-a.cpp:30-50 -/
example : [[0, 0, 0], [1, 3, 1], [0, 2, 0], [0, 2, 1], [1, 0, 0], [1, 3, 0], [1, 1, 1]].map
    (Fn.ofGroup (makeGroup [2, 4, 2]) : Fn (Ext ℚ)).hash =
    [.ok 0, .ok 15, .ok 4, .ok 5, .ok 8, .ok 14, .ok 11] := by decide +kernel

/-- `FunctionTestable` (tests/Test02-Function-a.cpp:56-59). -/
def testable : Fn (Ext ℚ) := Fn.ofGroup (makeGroup [2, 4, 2])

/-- `addBelowCritical` (tests/Test02-Function-a.cpp:90-94). -/
def below : Option (Fn (Ext ℚ)) := setAll testable [([0, 1, 0], 1), ([1, 3, 0], 2), ([0, 2, 1], 3)]

/-- `addAboveCritical` (tests/Test02-Function-a.cpp:96-108). -/
def above : Option (Fn (Ext ℚ)) := setAll testable [([0, 0, 0], 1), ([0, 0, 1], 1), ([0, 2, 0], 1), ([0, 2, 1], 1),
  ([1, 0, 0], 1), ([1, 0, 1], 1), ([1, 2, 0], 1), ([1, 2, 1], 1), ([1, 3, 1], 1)]

/-- The number of stored images, and whether they are sparse. -/
def stored (f : Fn (Ext ℚ)) : Nat × Bool :=
  match f.data with
  | .sparse l => (l.length, true)
  | .dense l => (l.length, false)

def vals (l : List ℚ) : List (Ext ℚ) := l.map .val

/-- tests/Test02-Function-a.cpp:115-118 -/
example : stored testable = (0, true) := by decide +kernel

/-- tests/Test02-Function-a.cpp:120-124 -/
example : below.map stored = some (3, true) := by decide +kernel

/-- tests/Test02-Function-a.cpp:126-134 -/
example : above.map (·.data) = some (.dense (vals [1, 1, 0, 0, 1, 1, 0, 0, 1, 1, 0, 0, 1, 1, 0, 1])) := by
  decide +kernel

/-- tests/Test02-Function-a.cpp:137-161 -/
example : found (setAll testable [([0, 0, 0], 1), ([1, 3, 0], 1), ([0, 2, 1], 2)]) [0, 2, 1] = some (.val 2) ∧
    found (setAll testable [([0, 0, 0], 1), ([1, 3, 0], 1), ([0, 2, 1], 2), ([0, 2, 1], 3 / 2)]) [0, 2, 1] =
      some (.val (3 / 2)) := by decide +kernel

/-- The raw images in the order of the combinations. -/
def raw (f : Fn (Ext ℚ)) : Option (List (Ext ℚ)) :=
  match f.rawEntries with
  | .ok l => some (l.map Prod.snd)
  | _ => none

/-- tests/Test02-Function-a.cpp:192-199 -/
example : raw testable = some (vals (List.replicate 16 0)) := by decide +kernel

/-- tests/Test02-Function-a.cpp:201-209 -/
example : below.bind raw = some (vals [0, 0, 1, 0, 0, 3, 0, 0, 0, 0, 0, 0, 0, 0, 2, 0]) := by decide +kernel

/-- tests/Test02-Function-a.cpp:212-219 -/
example : above.bind raw = some (vals [1, 1, 0, 0, 1, 1, 0, 0, 1, 1, 0, 0, 1, 1, 0, 1]) := by decide +kernel

/-- tests/Test02-Function-b.cpp:33-39 -/
example : [[0], [1], [2]].map (found (setAll (Fn.ofGroup (Group.single (var 0 3 "A"))) [([0], 1), ([1], 2)])) =
    [some (.val 1), some (.val 2), some (.val 0)] := by decide +kernel

def A : Var := var 0 3 "A"
def B : Var := var 1 4 "B"
def C : Var := var 2 2 "C"

/-- The ternary factor of tests/Test02-Function-b.cpp:61-64. -/
def ternary : Option (Fn (Ext ℚ)) := setAll (Fn.ofGroup ⟨[A, B, C], [A, B, C]⟩)
  [([0, 1, 0], 1), ([1, 1, 1], 2), ([1, 3, 0], 1 / 2), ([1, 2, 1], 7 / 10)]

/-- tests/Test02-Function-b.cpp:66-79 -/
example : [[0, 1, 0], [1, 1, 1], [1, 3, 0], [1, 2, 1], [0, 2, 0], [0, 2, 1], [0, 3, 0], [0, 3, 1]].map (found ternary) =
    [some (.val 1), some (.val 2), some (.val (1 / 2)), some (.val (7 / 10)), some (.val 0), some (.val 0),
      some (.val 0), some (.val 0)] := by decide +kernel

/-- The names of the variables after a replacement, or nothing if it is refused. -/
def replaced (f : Fn (Ext ℚ)) (vs : List Var) : Option (List String) :=
  match Fn.replaceVariables vs f with
  | .ok f' _ => some (f'.vars.group.map (·.name))
  | _ => none

/-- tests/Test02-Function-b.cpp:81-95 -/
example : ternary.map (fun f => replaced f [var 3 3 "A2", var 4 4 "B2", var 5 2 "C2"]) =
      some (some ["A2", "B2", "C2"]) ∧
    ternary.map (fun f => replaced f [var 3 5 "A2", var 4 2 "B2", var 5 2 "C2"]) = some none := by decide +kernel

/-- tests/Test02-Function-b.cpp:97-105 -/
example : ternary.map (fun f => (Fn.exponential f (.val (3 / 2))).bind (·.findTransformed [0, 1, 0])) =
      some (.ok (.val (exp (3 / 2)))) ∧
    ternary.map (fun f => (Fn.exponential f (.val (3 / 2))).bind (·.findTransformed [1, 1, 1])) =
      some (.ok (.val (exp (3 / 2 * 2)))) := by decide +kernel

/-- The factor of tests/Test02-Function-b.cpp:110-115. -/
def diagonal : Option (Fn (Ext ℚ)) := setAll (Fn.ofGroup ⟨[var 0 2 "A", var 1 2 "B"], [var 0 2 "A", var 1 2 "B"]⟩)
  [([0, 0], 1), ([0, 1], 0), ([1, 0], 0), ([1, 1], 1)]

/-- tests/Test02-Function-b.cpp:117-120 -/
example : diagonal.map (·.probabilities) = some (.ok (vals [1 / 2, 0, 0, 1 / 2])) := by decide +kernel

/-- tests/Test02-Function-b.cpp:122-133 -/
example : diagonal.map (fun f => (Fn.exponential f (.val (3 / 2))).bind (·.probabilities)) =
    some (.ok (vals (([exp (3 / 2), 1, 1, exp (3 / 2)] : List ℚ).map (· / (2 * (1 + exp (3 / 2))))))) := by
  decide +kernel

/-- tests/Test02-Function-b.cpp:176-197 -/
example :
    let b := var 1 3 "B"
    let d := var 3 3 "D"
    (setAll (Fn.ofGroup ⟨[b, d], [b, d]⟩) [([0, 1], 1), ([2, 1], 2), ([1, 1], 3)]).map (fun f =>
      (Finder.make f [var 0 3 "A", b, var 2 3 "C", d]).bind (fun fd =>
        Res.mapList fd.findImage [[0, 0, 2, 1], [2, 2, 0, 1], [2, 1, 2, 1]])) = some (.ok (vals [1, 2, 3])) := by
  decide +kernel

/-- tests/Test02-Function-b.cpp:149-174, with a group of three variables. -/
example :
    let vs := [var 0 4 "V0", var 1 4 "V1", var 2 4 "V2"]
    (setAll (Fn.ofGroup ⟨vs, vs⟩) [([0, 0, 0], 1), ([1, 1, 1], 1)]).map (fun f =>
      (Finder.make f [var 0 4 "V0", var 3 4 "V0_bis", var 1 4 "V1", var 4 4 "V1_bis", var 2 4 "V2", var 5 4 "V2_bis"]).bind
        (fun fd => Res.mapList fd.findImage ((List.range 4).map (List.replicate 6)))) = some (.ok (vals [1, 1, 0, 0])) := by
  decide +kernel

/-- tests/Test03-Factor.cpp:26-37 -/
example :
    let f : Fn (Ext ℚ) := Fn.ofGroup ⟨[A, B, C], [A, B, C]⟩
    let es := [([1, 2, 1], 2), ([0, 0, 0], 7 / 2), ([2, 3, 0], 1), ([1, 1, 1], 1 / 2)]
    es.map (fun e => found (setAll f es) e.1) = es.map (fun e => some (.val e.2)) ∧
    (match (setAll f es).map (Fn.mutableSet [1, 0, 1] (.val (-5 / 2))) with
      | some (.throw _) => true
      | _ => false) = true := by decide +kernel

/-- tests/Test03-Factor.cpp:39-70 -/
example :
    (match Text.importValues Text.fixed (some "0 1 1 2.0\n0 0 0 3.0\n1 1 3 2.5\n1 0 2 1.4".toList)
        (Fn.ofGroup (makeGroup [2, 2, 4])) with
      | .ok f _ => some ([[0, 1, 1], [0, 0, 0], [1, 1, 3], [1, 0, 2]].map f.findImage)
      | _ => none) = some [.ok (.val 2), .ok (.val 3), .ok (.val (5 / 2)), .ok (.val (7 / 5))] := by decide +kernel

/-- tests/Test03-Factor.cpp:84-97 -/
example : (match GroupRange.visit [4, 4, 4], (Fn.correlated (makeGroup [4, 4, 4]) : Res (Fn (Ext ℚ))) with
    | .ok cs, .ok f => cs.all (fun c => decide (f.findImage c = .ok (.val
        (if c.all (fun x => some x == c.head?) then 1 else 0)))) && decide (cs.length = 64)
    | _, _ => false) = true := by decide +kernel

/-- tests/Test03-Factor.cpp:99-111 -/
example : (match GroupRange.visit [4, 4, 4], (Fn.antiCorrelated (makeGroup [4, 4, 4]) : Res (Fn (Ext ℚ))) with
    | .ok cs, .ok f => cs.all (fun c => decide (f.findImage c = .ok (.val
        (if c.all (fun x => some x == c.head?) then 0 else 1)))) && decide (cs.length = 64)
    | _, _ => false) = true := by decide +kernel

/-- `setAllImages` (tests/Utils.cpp:73-77). -/
def constant (vs : List Var) (x : ℚ) : Option (Fn (Ext ℚ)) :=
  match GroupRange.visit (vs.map Var.size) with
  | .ok cs => setAll (Fn.ofGroup ⟨vs, vs⟩) (cs.map (fun c => (c, x)))
  | _ => none

/-- tests/Test03-Factor.cpp:114-141 -/
example :
    let a := var 0 2 "A"
    let b := var 1 2 "B"
    let c := var 2 2 "C"
    (match constant [a, c] (3 / 2), constant [b, c] (16 / 5), GroupRange.visit [2, 2, 2] with
      | some f, some g, .ok cs =>
        (match Fn.merge id [f, g] with
          | .ok m => decide (m.vars.group.length = 3) && [a, b, c].all m.vars.group.contains &&
              cs.all (fun c => decide (m.findImage c = .ok (.val (3 / 2 * (16 / 5)))))
          | _ => false)
      | _, _, _ => false) = true := by decide +kernel

/-- tests/Test03-Factor.cpp:169-187 -/
example :
    let a := var 0 3 "A"
    let b := var 1 3 "B"
    let c := var 2 3 "C"
    (setAll (Fn.ofGroup ⟨[a, b, c], [a, b, c]⟩) [([0, 1, 2], 1), ([0, 2, 0], 2), ([1, 0, 1], 3)]).map (fun f =>
      (f.cloneWithPermutedGroup ⟨[b, c, a], [b, c, a]⟩).bind (fun g =>
        if g.vars.group = [b, c, a] then Res.mapList g.findImage [[1, 2, 0], [2, 0, 0], [0, 1, 1]] else .throw)) =
      some (.ok (vals [1, 2, 3])) := by decide +kernel

/-- tests/Test03-SpecialFactor.cpp:13-22 -/
example : raw (Fn.ones A) = some (vals [1, 1, 1]) := by decide +kernel

/-- tests/Test03-SpecialFactor.cpp:24-50: as written there, the three images are all set on the first factor. -/
example : (match setAll (Fn.ofGroup (Group.single A)) [([0], 1), ([1], 1), ([2], 1), ([0], 1 / 10), ([1], 1 / 5),
      ([2], 3 / 10)], constant [A] 1 with
    | some f, some g => (Fn.mergedUnaries [f, g, g]).bind (·.images)
    | _, _ => .throw) = .ok (vals [1 / 10 / (3 / 10), 1 / 5 / (3 / 10), 1]) := by decide +kernel

/-- tests/Test03-SpecialFactor.cpp:52-61 -/
example : (Fn.indicator A 1 : Res (Fn (Ext ℚ))).bind (·.images) = .ok (vals [0, 1, 0]) := by decide +kernel

/-- `make_exp_test_factor` (tests/Test03-SpecialFactor.cpp:64-74). -/
def expFactor (w : ℚ) : Res (Fn (Ext ℚ)) := (Fn.correlated (makeGroup [2, 2])).bind (fun f => Fn.exponential f (.val w))

/-- tests/Test03-SpecialFactor.cpp:77-90 -/
example : (expFactor (13 / 10)).bind (fun f => (Fn.evidence f (var 100 2 "V0") 1).bind (fun e =>
    if e.vars.group = [var 101 2 "V1"] then e.images else .throw)) = .ok (vals [1, exp (13 / 10)]) := by decide +kernel

/-- The normalised unary factor of tests/Test03-SpecialFactor.cpp:100-106. -/
def senderA : Res (Fn (Ext ℚ)) :=
  match setAll (Fn.ofGroup (Group.single (var 100 2 "V0"))) [([0], 1 / 2), ([1], 1)] with
  | some f => (Fn.exponential f (.val (3 / 5))).bind (fun e => Fn.mergedUnaries [e])
  | none => .throw

/-- tests/Test03-SpecialFactor.cpp:108-121 -/
example : senderA.bind (fun a => (expFactor (13 / 10)).bind (fun f => (Fn.message .sum a f).bind (·.images))) =
    senderA.bind (fun a => a.images.bind (fun l =>
      match l with
      | [.val x, .val y] => .ok (vals [exp (13 / 10) * x + y, x + exp (13 / 10) * y])
      | _ => .throw)) := by decide +kernel

/-- tests/Test03-SpecialFactor.cpp:123-133 -/
example : senderA.bind (fun a => (expFactor (13 / 10)).bind (fun f => (Fn.message .map a f).bind (·.images))) =
    senderA.bind (fun a => a.images.bind (fun l =>
      match l with
      | [.val x, .val y] => .ok (vals [max (exp (13 / 10) * x) y, max x (exp (13 / 10) * y)])
      | _ => .throw)) := by decide +kernel

end EFG.UnitTests
