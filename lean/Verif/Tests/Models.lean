import Verif.Tests.Functions
import Verif.Props.Xml
/-
The unit tests of the repository about models, run on the model in rational arithmetic. As in `Tests/Functions.lean`,
these examples prove no property: they check that the model gives what the tests of the repository expect.
-/

namespace EFG.UnitTests
open State

abbrev Test := M (State (Ext ℚ))

/-- The answer of some calls on an empty model, or nothing if one of them throws or is undefined. -/
def answer {α : Type} (t : Test α) : Option α :=
  match t (State.initial []) with
  | .ok _ a => some a
  | _ => none

/-- Whether a call throws. -/
def throws (t : Test Unit) : Test Bool := fun s =>
  match t s with
  | .ok s' _ => .ok s' false
  | .throw s' => .ok s' true
  | .ub => .ub

/-- Something read from the state. -/
def look {α : Type} (f : State (Ext ℚ) → α) : Test α := fun s => .ok s (f s)

/-- A new factor in memory. -/
def new (f : Res (Fn (Ext ℚ))) : Test Nat := fun s =>
  match f with
  | .ok f => .ok (State.alloc f s).1 (State.alloc f s).2
  | .throw => .throw s
  | .ub => .ub

/-- `make_corr_factor_ptr` (tests/Utils.cpp:37-42). -/
def corr (a b : Var) : Test Nat := new ((Group.ofVars a b []).bind Fn.correlated)

/-- `make_corr_expfactor_ptr` (tests/Utils.cpp:51-56). -/
def corrExp (a b : Var) (w : ℚ) : Test Nat :=
  new (((Group.ofVars a b []).bind Fn.correlated).bind (fun f => Fn.exponential f (.val w)))

def addConst (p : Test Nat) : Test Unit := p >>= fun p => addConstFactor (some p)
def addTune (p : Test Nat) (share : Option VarSet := none) : Test Unit := p >>= fun p => addTunable (some p) share
def find (name : String) : Test Var := State.lift (fun s => s.findVariable name)
def observe (name : String) (k : Nat) : Test Unit := find name >>= fun v => setEvidence id v k
def marginal (name : String) (threads : Nat := 1) : Test (List (Ext ℚ)) := getMarginalByName id id name threads

/-- `make_prob_distr` (tests/Utils.cpp:58-68). -/
def distribution (l : List ℚ) : List (Ext ℚ) := l.map (fun x => .val (x / l.sum))

/-- `almost_equal_it` (tests/Utils.h). -/
def almost (threshold : ℚ) : List (Ext ℚ) → List (Ext ℚ) → Bool
  | [], [] => true
  | .val a :: l, .val b :: m => decide (|a - b| < threshold) && almost threshold l m
  | _, _ => false

def v (addr : Nat) (name : String) : Var := var addr 2 name

/-! ### tests/Test04-Insertions.cpp -/

/-- `checkPostInsertion` and `checkVariables` (tests/Test04-Insertions.cpp:18-53). -/
def inserted (vs : List Var) (s : State (Ext ℚ)) : Bool :=
  s.last.isNone && s.evidences.isEmpty && s.nodes.length == s.vars.length &&
    (s.clusters.map (·.nodes.length)).sum == s.nodes.length &&
    s.nodes.length == vs.length && vs.all ((AMap.keys s.nodes).contains ·)

/-- The numbers of factors, constant factors, tunable factors and tuners. -/
def counts (s : State (Ext ℚ)) : List Nat :=
  [s.factors.length, s.consts.length, s.tunables.length, s.tuners.length]

/-- tests/Test04-Insertions.cpp:71-101 -/
example : answer (do
      let p ← corr (v 0 "A") (v 1 "B")
      copyConstFactor p
      look (fun s => (inserted [v 0 "A", v 1 "B"] s, counts s,
        decide (s.factors.map (fun q => (s.heap[q]?).map (·.images)) = [(s.heap[p]?).map (·.images)]),
        decide (s.factors = s.consts)))) = some (true, [1, 1, 0, 0], true, true) ∧
    answer (do
      let p ← corr (v 0 "A") (v 1 "B")
      addConstFactor (some p)
      look (fun s => (inserted [v 0 "A", v 1 "B"] s, counts s, decide (s.factors = [p] ∧ s.consts = [p])))) =
      some (true, [1, 1, 0, 0], true) := by decide +kernel

/-- tests/Test04-Insertions.cpp:126-164 -/
example : answer (do
      let p ← corrExp (v 0 "A") (v 1 "B") 1
      copyTunable p none
      look (fun s => (inserted [v 0 "A", v 1 "B"] s, counts s,
        decide (s.factors.map (fun q => (s.heap[q]?).map (·.images)) = [(s.heap[p]?).map (·.images)]),
        decide (s.factors = s.tunables)))) = some (true, [1, 0, 1, 1], true, true) ∧
    answer (do
      let p ← corrExp (v 0 "A") (v 1 "B") 1
      addTunable (some p) none
      look (fun s => (inserted [v 0 "A", v 1 "B"] s, counts s, decide (s.factors = [p] ∧ s.tunables = [p])))) =
      some (true, [1, 0, 1, 1], true) := by decide +kernel

/-- tests/Test04-Insertions.cpp:166-190 -/
example : answer (do
      addTune (corrExp (v 0 "A") (v 1 "B") 1)
      addTune (corrExp (v 0 "A") (v 2 "C") 1) (some [v 0 "A", v 1 "B"])
      look (fun s => (inserted [v 0 "A", v 1 "B", v 2 "C"] s, counts s, s.tunableClusters.map List.length))) =
    some (true, [2, 0, 2, 1], [2]) := by decide +kernel

/-- tests/Test04-Insertions.cpp:194-219 -/
example : answer (do
      let ab ← corrExp (v 0 "A") (v 1 "B") 1
      let bc ← corrExp (v 1 "B") (v 2 "C") 1
      let d ← new (Fn.exponential (Fn.ofGroup (Group.single (v 3 "D"))) (.val 1))
      copyTunable ab none
      copyConstFactor bc
      copyTunable d none
      look (fun s => (inserted [v 0 "A", v 1 "B", v 2 "C", v 3 "D"] s, counts s,
        decide ((s.clusters.map (·.nodes.length)).Perm [1, 3])))) = some (true, [3, 1, 2, 2], true) := by decide +kernel

/-- tests/Test04-Insertions.cpp:221-249 -/
example : answer (do
      addConst (corr (v 0 "A") (v 1 "B"))
      let a ← throws (addConst (corr (v 0 "A") (v 1 "B")))
      let b ← throws (addConst (new (.ok (Fn.ofGroup (Group.single (v 5 "A"))))))
      let c ← throws (addConst (corr (v 5 "A") (v 2 "C")))
      pure [a, b, c]) = some [true, true, true] := by decide +kernel

/-! ### tests/Test05-Evidences.cpp -/

def U (k : Nat) : Var := v (10 + k) ("A" ++ toString k)
def Mid (k : Nat) : Var := v (20 + k) ("M" ++ toString k)
def L (k : Nat) : Var := v (30 + k) ("L" ++ toString k)

/-- `EvidenceTest` (tests/Test05-Evidences.cpp:26-57). -/
def evidenceTest : Test Unit := do
  addConst (corr (U 0) (Mid 0))
  addConst (corr (L 0) (Mid 0))
  addConst (corr (U 1) (Mid 1))
  addConst (corr (L 1) (Mid 1))
  addConst (corr (U 0) (Mid 1))
  addConst (corr (L 0) (Mid 1))
  addConst (corr (U 2) (Mid 2))
  addConst (corr (L 2) (Mid 2))
  addConst (corr (U 1) (Mid 2))
  addConst (corr (L 1) (Mid 2))

/-- Whether the clusters are the given sets. -/
def clustersAre (l : List (List Var)) (s : State (Ext ℚ)) : Bool :=
  s.clusters.length == l.length && l.all (fun vs => s.clusters.any (fun c =>
    c.nodes.length == vs.length && vs.all (c.nodes.contains ·)))

def everyone : List Var := [U 0, U 1, U 2, Mid 0, Mid 1, Mid 2, L 0, L 1, L 2]

/-- tests/Test05-Evidences.cpp:84-116 -/
example : answer (do
      evidenceTest
      let a ← look (clustersAre [everyone])
      setEvidence id (Mid 1) 0
      let b ← look (clustersAre [[U 0, Mid 0, L 0], [U 2, Mid 2, L 2, U 1, L 1]])
      let c ← look (fun s => decide (s.evidences = [(Mid 1, 0)]))
      setEvidence id (Mid 2) 1
      let d ← look (clustersAre [[U 0, Mid 0, L 0], [U 1], [U 2], [L 1], [L 2]])
      let e ← look (fun s => decide (s.evidences.Perm [(Mid 1, 0), (Mid 2, 1)]))
      pure [a, b, c, d, e]) = some (List.replicate 5 true) := by decide +kernel

/-- tests/Test05-Evidences.cpp:118-142 -/
example : answer (do
      evidenceTest
      setEvidence id (Mid 1) 0
      setEvidence id (Mid 2) 0
      removeEvidence id (Mid 2)
      let a ← look (clustersAre [[U 0, Mid 0, L 0], [U 1, U 2, L 1, L 2, Mid 2]])
      let b ← look (fun s => decide (s.evidences = [(Mid 1, 0)]))
      removeEvidence id (Mid 1)
      let c ← look (clustersAre [everyone])
      let d ← look (fun s => s.evidences.isEmpty)
      pure [a, b, c, d]) = some (List.replicate 4 true) := by decide +kernel

/-- tests/Test05-Evidences.cpp:144-167 -/
example : answer (do
      evidenceTest
      setEvidence id (Mid 1) 0
      setEvidence id (Mid 2) 0
      removeEvidences id [Mid 1, Mid 2]
      let a ← look (clustersAre [everyone])
      let b ← look (fun s => s.evidences.isEmpty)
      setEvidence id (Mid 1) 0
      setEvidence id (Mid 2) 0
      removeAllEvidences id
      let c ← look (clustersAre [everyone])
      let d ← look (fun s => s.evidences.isEmpty)
      let e ← throws (removeEvidence id (Mid 2))
      pure [a, b, c, d, e]) = some (List.replicate 5 true) := by decide +kernel

/-! ### tests/Test07-BeliefPropagation.cpp -/

/-- `areAllMessagesComputed` (tests/Test07-BeliefPropagation.cpp:23-35). -/
def messagesComputed (s : State (Ext ℚ)) : Bool :=
  s.clusters.all (fun c => c.nodes.all (fun w => (s.activeOf w).all (fun e => e.2.message.isSome)))

/-- tests/Test07-BeliefPropagation.cpp:71-93 -/
example : ∀ w ∈ ([1, 3 / 2, 2] : List ℚ), answer (do
      addConst (corrExp (v 0 "A") (v 1 "B") w)
      observe "B" 0
      let a ← marginal "A"
      observe "B" 1
      let b ← marginal "A"
      removeAllEvidences id
      observe "A" 0
      let c ← marginal "B"
      observe "A" 1
      let d ← marginal "B"
      pure [a, b, c, d]) = some [distribution [exp w, 1], distribution [1, exp w], distribution [exp w, 1],
        distribution [1, exp w]] := by decide +kernel

/-- `SimpleTree` (tests/ModelLibrary.cpp:10-21). -/
def simpleTree : Test Unit := do
  addTune (corrExp (v 0 "A") (v 1 "B") 1)
  addTune (corrExp (v 1 "B") (v 2 "C") 2)
  addTune (corrExp (v 1 "B") (v 3 "D") 1)
  addTune (corrExp (v 3 "D") (v 4 "E") (3 / 2))

/-- tests/Test07-BeliefPropagation.cpp:95-120 -/
example :
    let a := exp 1
    let b := exp 2
    let g := exp 1
    let e := exp (3 / 2)
    answer (do
      simpleTree
      let n ← look (fun s => s.last.isSome)
      observe "E" 1
      let x ← marginal "A"
      let r ← look (fun s => s.last)
      let m ← look messagesComputed
      let y ← marginal "B"
      let z ← marginal "C"
      let t ← marginal "D"
      pure ((n, r, m), [x, y, z, t])) =
    some ((false, some ⟨.sum, true, [(true, 4)]⟩, true),
      [distribution [a * (g + e) + (1 + g * e), (g + e) + a * (1 + g * e)], distribution [g + e, 1 + g * e],
        distribution [b * (g + e) + (1 + g * e), (g + e) + b * (1 + g * e)], distribution [1, e]]) := by
  decide +kernel

/-- tests/Test07-BeliefPropagation.cpp:95-142 -/
example :
    let a := exp 1
    let b := exp 2
    let g := exp 1
    let e := exp (3 / 2)
    answer (do
      simpleTree
      observe "E" 1
      let _ ← marginal "A"
      removeAllEvidences id
      let n ← look (fun s => s.last.isSome)
      observe "D" 1
      let x ← marginal "A"
      let r ← look (fun s => match s.last with
        | some r => decide (r.kind = .sum) && r.completed && decide (r.structures.Perm [(true, 3), (true, 1)])
        | none => false)
      let m ← look messagesComputed
      let y ← marginal "B"
      let z ← marginal "C"
      let t ← marginal "E"
      pure ((n, r, m), [x, y, z, t])) =
    some ((false, true, true),
      [distribution [a + g, 1 + a * g], distribution [1, g], distribution [b + g, 1 + b * g], distribution [1, e]]) := by
  decide +kernel

/-- `ComplexTree` (tests/ModelLibrary.cpp:23-43). -/
def edges (l : List (Nat × Nat)) : Test Unit :=
  State.forEach (fun e => addTune (corrExp (v e.1 ("v" ++ toString e.1)) (v e.2 ("v" ++ toString e.2)) 1)) l

def less : List (Ext ℚ) → Bool
  | [.val a, .val b] => decide (a < b)
  | _ => false

/-- tests/Test07-BeliefPropagation.cpp:144-165 -/
example : ∀ threads ∈ [1, 2, 4], answer (do
      edges [(1, 4), (2, 4), (3, 5), (4, 6), (4, 7), (5, 7), (5, 8), (6, 9), (6, 10), (7, 11), (8, 12), (8, 13)]
      observe "v1" 1
      observe "v2" 1
      observe "v3" 1
      let a ← marginal "v10" threads
      let b ← marginal "v11" threads
      let c ← marginal "v13" threads
      let m ← look messagesComputed
      pure (less a && less b && less c && m)) = some true := by decide +kernel

/-- tests/Test07-BeliefPropagation.cpp:167-196 on `SimpleLoopy` (tests/ModelLibrary.cpp:47-59). -/
example :
    let m := exp 1
    let alfa := m ^ 3 + m + 2 * m ^ 2
    let beta := m ^ 4 + 2 * m + m ^ 2
    answer (do
      addTune (corrExp (v 0 "A") (v 1 "B") 1)
      addTune (corrExp (v 1 "B") (v 2 "C") 1)
      addTune (corrExp (v 1 "B") (v 3 "D") 1)
      addTune (corrExp (v 2 "C") (v 3 "D") 1)
      addTune (corrExp (v 4 "E") (v 3 "D") 1)
      observe "E" 1
      let d ← marginal "D"
      let r ← look (fun s => s.last)
      let t ← look messagesComputed
      let c ← marginal "C"
      let b ← marginal "B"
      let a ← marginal "A"
      pure (r, [t, almost (45 / 1000) d (distribution [3 * m + m ^ 3, m ^ 4 + 3 * m ^ 2]),
        almost (45 / 1000) c (distribution [alfa, beta]), almost (45 / 1000) b (distribution [alfa, beta]),
        almost (45 / 1000) a (distribution [m * alfa + beta, alfa + m * beta])])) =
    some (some ⟨.sum, true, [(false, 4)]⟩, List.replicate 5 true) := by decide +kernel

/-- tests/Test07-BeliefPropagation.cpp:198-208 on `ComplexLoopy` (tests/ModelLibrary.cpp:61-79). -/
example : ∀ threads ∈ [1, 2, 4], answer (do
      edges [(1, 2), (2, 4), (2, 3), (3, 4), (4, 5), (3, 5), (4, 6), (5, 7), (6, 7), (7, 8)]
      observe "v1" 1
      let a ← marginal "v8" threads
      let m ← look messagesComputed
      pure (less a && m)) = some true := by decide +kernel

/-- `make_chain_model` (tests/Test07-BeliefPropagation.cpp:251-281). -/
def chain (wXY wYY : ℚ) : Test Unit := do
  State.forEach (fun k => addConst (corrExp (v (10 + k) ("X" ++ toString k)) (v (20 + k) ("Y" ++ toString k)) wXY))
    [0, 1, 2, 3]
  State.forEach (fun k => addConst (corrExp (v (20 + k) ("Y" ++ toString k)) (v (21 + k) ("Y" ++ toString (k + 1))) wYY))
    [0, 1, 2]
  let p ← new ((Fn.indicator (v 20 "Y0") 1).bind (fun f => Fn.exponential f (.val wYY)))
  copyConstFactor p
  observe "X0" 0
  observe "X1" 1
  observe "X2" 0
  observe "X3" 1

/-- tests/Test07-BeliefPropagation.cpp:284-292 -/
example : answer (do
      chain (1 / 10) 1
      let m ← getHiddenSetMAP id id 1
      let r ← look (fun s => s.last.map (·.kind))
      pure (m, r)) = some ([1, 1, 1, 1], some .map) := by decide +kernel

/-- tests/Test07-BeliefPropagation.cpp:294-316 -/
example : answer (do
      chain 1 (1 / 10)
      let h ← look (fun s => s.hiddenVariables.map (·.name))
      let m ← getHiddenSetMAP id id 1
      pure (decide ((h.zip m).Perm [("Y0", 0), ("Y1", 1), ("Y2", 0), ("Y3", 1)]))) = some true := by decide +kernel

/-- tests/Test07-BeliefPropagation.cpp:319-344: the marginals as the factors really are, with `alfa` for all of them. -/
example :
    let e := exp (1 / 2)
    answer (do
      addConst (corrExp (v 0 "A") (v 1 "B") (1 / 2))
      addConst (corrExp (v 1 "B") (v 2 "C") (1 / 2))
      addConst (corrExp (v 2 "C") (v 3 "D") (1 / 2))
      let abc ← getJoint id id id ⟨[v 0 "A", v 1 "B", v 2 "C"], [v 0 "A", v 1 "B", v 2 "C"]⟩ 1
      let p ← State.lift (fun _ => abc.probabilities)
      let ab ← getJoint id id id ⟨[v 0 "A", v 1 "B"], [v 0 "A", v 1 "B"]⟩ 1
      let q ← State.lift (fun _ => ab.probabilities)
      pure (p, q)) =
    some (distribution [e * e, e, 1, e, e, 1, e, e * e], distribution [e, 1, 1, e]) := by decide +kernel

/-! ### tests/Test06-IO.cpp -/

def T (k : Nat) : Var := var (40 + k) 3 ("V" ++ toString k)
def O : Var := var 50 3 "O"

/-- `TestModel` (tests/Test06-IO.cpp:78-97). -/
def ioModel : Test Unit := do
  addConst (corr (T 0) O)
  addConst (corr (T 1) O)
  addConst (corr (T 2) O)
  addConst (corr (T 3) O)
  addTune (corrExp (T 0) (T 1) (1 / 2))
  addTune (corrExp (T 1) (T 2) (7 / 10))
  addTune (corrExp (T 2) (T 3) (6 / 5))
  addTune (corrExp (T 3) (T 0) (6 / 5)) (some [T 2, T 3])
  setEvidence id O 1

/-- The names of the variables of a factor. -/
def namesOf (s : State (Ext ℚ)) (p : Nat) : List String :=
  match s.heap[p]? with
  | some f => f.vars.group.map (·.name)
  | none => []

/-- `checkVariables` and `checkEvidences` (tests/Test06-IO.cpp:51-69). -/
def variablesAndEvidences (s : State (Ext ℚ)) : Bool :=
  decide ((s.vars.map (·.name)).Perm ["V0", "V1", "V2", "V3", "O"]) &&
    decide (s.evidences.map (fun e => (e.1.name, e.2)) = [("O", 1)])

/-- `checkConstFactors` and `checkTunablefactors` (tests/Test06-IO.cpp:104-152). -/
def factorsRead (s : State (Ext ℚ)) : Bool :=
  decide ((s.consts.map (namesOf s)).Perm [["V0", "O"], ["V1", "O"], ["V2", "O"], ["V3", "O"]]) &&
    decide ((s.tunableClusters.map (fun l => l.map (namesOf s))).Perm [[["V0", "V1"]], [["V1", "V2"]],
      [["V2", "V3"], ["V3", "V0"]]]) &&
    decide ((s.tunables.map (fun p => match s.heap[p]? with
      | some f => (namesOf s p, f.weight)
      | none => ([], none))).Perm [(["V0", "V1"], some (.val (1 / 2))), (["V1", "V2"], some (.val (7 / 10))),
        (["V2", "V3"], some (.val (6 / 5))), (["V3", "V0"], some (.val (6 / 5)))])

/-- What is read back from the JSON document of a model, in a random field or in a graph. -/
def throughJson (tunes : Bool) : Test Unit := fun s =>
  match JsonOut.convert Text.fixed Ex.forwards s with
  | .ok j => JsonIn.importJson Text.fixed Ex.reading tunes j (State.initial [])
  | _ => .throw s

/-- What is read back from the XML document of a model. -/
def throughXml (tunes : Bool) : Test Unit := fun s =>
  match XmlOut.convert Text.fixed Ex.forwards s with
  | .ok t => XmlIn.importXml Text.fixed (fun _ => none) Ex.reading tunes t (State.initial [])
  | _ => .throw s

/-- tests/Test06-IO.cpp:154-180 and 182-208 -/
example : answer (do
      ioModel
      throughXml true
      look (fun s => variablesAndEvidences s && factorsRead s)) = some true ∧
    answer (do
      ioModel
      throughXml false
      look (fun s => (variablesAndEvidences s, counts s))) = some (true, [8, 8, 0, 0]) ∧
    answer (do
      ioModel
      throughJson true
      look (fun s => variablesAndEvidences s && factorsRead s)) = some true ∧
    answer (do
      ioModel
      throughJson false
      look (fun s => (variablesAndEvidences s, counts s))) = some (true, [8, 8, 0, 0]) := by decide +kernel

/-! ### tests/Test09-Gradient.cpp -/

/-- The β parts of tests/Test09-Gradient.cpp:38-47 and 72-110, on the chain of three factors. -/
example : ∀ w ∈ ([1, 1 / 2, 2] : List ℚ), answer (do
      addTune (corrExp (v 0 "A") (v 1 "B") 1)
      addTune (corrExp (v 1 "B") (v 2 "C") (1 / 2))
      addTune (corrExp (v 2 "C") (v 3 "D") 2)
      setWeights [.val w, .val w, .val w]
      propagateBelief id id .sum
      State.lift (fun s => Res.mapList (tunerSum (baseBeta id s)) s.tuners)) =
    some (List.replicate 3 (.val (exp w / (1 + exp w)))) := by decide +kernel

end EFG.UnitTests
