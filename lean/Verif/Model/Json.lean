import Verif.Model.Text
import Verif.Model.Models
/-
Models written to json and read from json: io/json/Exporter.cpp, io/json/Importer.{h,cpp}, and `ImportHelper`
(src/src/io/Utils.h:77-94, Utils.cpp:48-76).

The values of `nlohmann::json` are trees. The text which `dump` makes of a tree and `parse` reads is not
modelled, except for the text of a single string (`Json.toStr`), on which the importer works.
-/

namespace EFG

/-- A `nlohmann::json` value. The values of an object are listed in the order in which they are iterated.
Numbers and booleans are all represented by `scalar`: the code treats them in the same way. -/
inductive Json where
  | null
  | str (s : List Char)
  | scalar
  | arr (l : List Json)
  | obj (l : List (String × Json))

namespace Json

/-- What `for (const auto &x : subject)` visits: the elements of an array, the values of an object, nothing for
null, and the value itself for strings, numbers and booleans. -/
def items : Json → List Json
  | .null => []
  | .arr l => l
  | .obj l => l.map Prod.snd
  | j => [j]

/-- `try_access` (io/json/Importer.cpp:25-28). -/
def tryAccess (j : Json) (name : String) : Option Json :=
  match j with
  | .obj l => (l.find? (fun e => e.1 == name)).map Prod.snd
  | _ => none

/-- `access` (io/json/Importer.cpp:30-36). -/
def access (j : Json) (name : String) : Res Json :=
  match j.tryAccess name with
  | some x => .ok x
  | none => .throw

/-- `operator[]` of a constant value: a missing key is undefined behaviour, a value which is not an object makes
it throw. -/
def index (j : Json) (name : String) : Res Json :=
  match j with
  | .obj _ => Res.ofOption (j.tryAccess name)
  | _ => .throw

/-- A hexadecimal digit. -/
def hexDigit (n : Nat) : Char := "0123456789abcdef".toList.getD n '0'

/-- The characters which `dump` writes for a character of a string. -/
def escapeChar (c : Char) : List Char :=
  if c = '"' then ['\\', '"']
  else if c = '\\' then ['\\', '\\']
  else if c.toNat = 8 then ['\\', 'b']
  else if c.toNat = 9 then ['\\', 't']
  else if c.toNat = 10 then ['\\', 'n']
  else if c.toNat = 12 then ['\\', 'f']
  else if c.toNat = 13 then ['\\', 'r']
  else if c.toNat < 32 then ['\\', 'u', '0', '0', hexDigit (c.toNat / 16), hexDigit (c.toNat % 16)]
  else [c]

/-- `to_string` (io/json/Importer.cpp:38-44): the dump of a string, without the quotes. -/
def toStr : Json → Res (List Char)
  | .str s => .ok (s.flatMap escapeChar)
  | _ => .throw

/-- What `emplace_back` in a new value makes: it stays null when nothing is added. -/
def array (l : List Json) : Json := if l.isEmpty then .null else .arr l

end Json

/-! ### Exporter -/

namespace JsonOut
variable {F : Type} [Arith F]

/-- `printVariable` (io/json/Exporter.cpp:22-26), and the evidence (Exporter.cpp:72). -/
def oneVariable (v : Var) (evidence : Option Nat) : Json :=
  .obj ([("name", .str v.name.toList), ("Size", .str (Text.ofNat v.size))] ++
    match evidence with
    | none => []
    | some x => [("evidence", .str (Text.ofNat x))])

/-- `printGroup` (io/json/Exporter.cpp:28-33). -/
def group (vars : List Var) : Json := .array (vars.map (fun v => .str v.name.toList))

/-- One element of "Distr_val" (io/json/Exporter.cpp:42-47). -/
def entry (tx : FloatText F) (e : List Nat × F) : Json :=
  .obj [("D", .str (tx.print e.2)), ("v", .array (e.1.map (fun x => .str (Text.ofNat x))))]

/-- `printPotential` (io/json/Exporter.cpp:35-50): the fields of the new object. -/
def potential (tx : FloatText F) (f : Fn F) : Res (List (String × Json)) :=
  match f.nonNullEntries false with
  | .ok es => .ok [("Variables", group f.vars.group), ("Distr_val", .array (es.map (entry tx)))]
  | .throw => .throw
  | .ub => .ub

/-- `printExpPotential` (io/json/Exporter.cpp:52-57). The weight of a function which is not exponential is not
accessible in C++. -/
def expPotential (tx : FloatText F) (f : Fn F) : Res (List (String × Json)) :=
  match potential tx f with
  | .ok fields =>
    match f.weight with
    | some w => .ok (fields ++ [("weight", .str (tx.print w))])
    | none => .ub
  | .throw => .throw
  | .ub => .ub

/-- A constant factor (io/json/Exporter.cpp:76-86). -/
def const (tx : FloatText F) (s : State F) (p : Nat) : Res Json :=
  match s.deref p with
  | .ok f =>
    if f.weight.isSome then
      match expPotential tx f with
      | .ok fields => .ok (.obj (fields ++ [("tunability", .str ['N'])]))
      | .throw => .throw
      | .ub => .ub
    else
      match potential tx f with
      | .ok fields => .ok (.obj fields)
      | .throw => .throw
      | .ub => .ub
  | .throw => .throw
  | .ub => .ub

/-- A tunable factor (io/json/Exporter.cpp:92-105), with the variables of the factor whose weight it shares. -/
def tunable (tx : FloatText F) (s : State F) (share : Option (List Var)) (p : Nat) : Res Json :=
  match s.deref p with
  | .ok f =>
    match expPotential tx f with
    | .ok fields =>
      .ok (.obj (fields ++ [("tunability", .str ['Y'])] ++
        match share with
        | none => []
        | some vs => [("Share", group vs)]))
    | .throw => .throw
    | .ub => .ub
  | .throw => .throw
  | .ub => .ub

/-- The visit of a cluster (io/json/Exporter.cpp:92-105). `front()` of an empty cluster is undefined. -/
def cluster (tx : FloatText F) (s : State F) (c : List Nat) : Res (List Json) :=
  match c with
  | [] => .ub
  | p :: ps =>
    match tunable tx s none p, s.deref p with
    | .ok j, .ok f =>
      match Res.mapList (tunable tx s (some f.vars.group)) ps with
      | .ok js => .ok (j :: js)
      | .throw => .throw
      | .ub => .ub
    | .throw, _ => .throw
    | _, .throw => .throw
    | _, _ => .ub

/-- `Exporter::convert` (io/json/Exporter.cpp:60-111), in the orders in which the hash containers of the model
are visited. A model without tunable factors has no tuners. -/
def convert (tx : FloatText F) (o : VisitOrder) (s : State F) : Res Json :=
  match Res.mapList (const tx s) (o.factors s.consts) with
  | .ok cs =>
    match Res.mapList (cluster tx s) s.tunableClusters with
    | .ok ts =>
      .ok (.obj [
        ("Variables", .array ((o.vars s.hiddenVariables).map (fun v => oneVariable v none) ++
          (o.evidences s.evidences).map (fun e => oneVariable e.1 (some e.2)))),
        ("Potentials", .array (cs ++ ts.flatten))])
    | .throw => .throw
    | .ub => .ub
  | .throw => .throw
  | .ub => .ub

end JsonOut

/-! ### Importer -/

/-- The choices of an import: the addresses of the new variables, the orders in which the set of the imported
variables and the map of the imported evidences are visited, and the order of the sets of the model. -/
structure ImportOrder where
  fresh : Nat → Nat
  found : List Var → List Var
  evidences : List (String × Nat) → List (String × Nat)
  vars : List Var → List Var

/-- What is done with a factor which was read. -/
inductive ItemKind where
  | const
  | tunable (share : Option VarSet)

namespace JsonIn
variable {F : Type} [Arith F]

/-- The imported variables and evidences. -/
structure Read where
  vars : VarSet
  evidences : List (String × Nat)

/-- `evidences.emplace(name, val)`. -/
def emplaceEvidence (l : List (String × Nat)) (name : String) (x : Nat) : List (String × Nat) :=
  if l.any (fun e => e.1 == name) then l else l ++ [(name, x)]

/-- The text of a field (io/json/Importer.cpp:139-140). -/
def field (j : Json) (name : String) : Res (List Char) :=
  match j.access name with
  | .ok x => x.toStr
  | .throw => .throw
  | .ub => .ub

/-- Adds a variable (io/json/Importer.cpp:142-151). -/
def addVariable (r : Read) (v : Var) (flag : Option Json) : Res Read :=
  if VarSet.mem r.vars v then .throw
  else
    match flag with
    | none => .ok { r with vars := VarSet.emplace r.vars v }
    | some x =>
      match x.toStr with
      | .ok text =>
        match Text.atoSize text with
        | .ok val => .ok ⟨VarSet.emplace r.vars v, emplaceEvidence r.evidences v.name val⟩
        | .throw => .throw
        | .ub => .ub
      | .throw => .throw
      | .ub => .ub

/-- One round of the loop on the variables (io/json/Importer.cpp:138-152). -/
def oneVariable (o : ImportOrder) (r : Read) (j : Json) : Res Read :=
  match field j "name" with
  | .ok name =>
    match field j "Size" with
    | .ok size =>
      match Text.atoSize size with
      | .ok n =>
        match makeVariable (o.fresh r.vars.length) n (String.ofList name) with
        | .ok v => addVariable r v (j.tryAccess "evidence")
        | .throw => .throw
        | .ub => .ub
      | .throw => .throw
      | .ub => .ub
    | .throw => .throw
    | .ub => .ub
  | .throw => .throw
  | .ub => .ub

/-- `findVariable` (io/json/Importer.cpp:46-56). -/
def findVariable (o : ImportOrder) (vars : VarSet) (j : Json) : Res Var :=
  match j.toStr with
  | .ok name =>
    match (o.found vars).find? (fun v => v.name == String.ofList name) with
    | some v => .ok v
    | none => .throw
  | .throw => .throw
  | .ub => .ub

/-- `importGroup` (io/json/Importer.cpp:58-68). -/
def group (o : ImportOrder) (vars : VarSet) (j : Json) : Res Group :=
  match Res.mapList (findVariable o vars) j.items with
  | .ok l => if l.length ≠ 1 ∧ l.length ≠ 2 then .throw else Group.ofSoup l
  | .throw => .throw
  | .ub => .ub

/-- A number of a combination (io/json/Importer.cpp:95-97). -/
def value (j : Json) : Res Nat :=
  match j.toStr with
  | .ok t => Text.atoSize t
  | .throw => .throw
  | .ub => .ub

/-- One round of the loop on the images (io/json/Importer.cpp:93-101). -/
def entry (tx : FloatText F) (f : Fn F) (j : Json) : Res (Fn F) :=
  match j.index "v" with
  | .ok v =>
    match Res.mapList value v.items with
    | .ok comb =>
      match field j "D" with
      | .ok t =>
        match Fn.mutableSet comb (tx.parse t) f with
        | .ok f' _ => .ok f'
        | .throw _ => .throw
        | .ub => .ub
      | .throw => .throw
      | .ub => .ub
    | .throw => .throw
    | .ub => .ub
  | .throw => .throw
  | .ub => .ub

/-- The images of a factor without "Correlation" (io/json/Importer.cpp:90-103). -/
def images (tx : FloatText F) (g : Group) (j : Json) : Res (Fn F) :=
  match j.access "Distr_val" with
  | .ok d => Res.foldList (entry tx) (Fn.ofGroup g) d.items
  | .throw => .throw
  | .ub => .ub

/-- `importFactor` (io/json/Importer.cpp:70-104). -/
def factor (tx : FloatText F) (o : ImportOrder) (vars : VarSet) (j : Json) : Res (Fn F) :=
  match j.access "Variables" with
  | .ok vs =>
    match group o vars vs with
    | .ok g =>
      match j.tryAccess "Correlation" with
      | none => images tx g j
      | some c =>
        match c.toStr with
        | .ok t =>
          if t = ['T'] then Fn.correlated g
          else if t = ['F'] then Fn.antiCorrelated g
          else .throw
        | .throw => .throw
        | .ub => .ub
    | .throw => .throw
    | .ub => .ub
  | .throw => .throw
  | .ub => .ub

/-- Whether a factor with a weight is tunable, and with which factor it shares the weight
(io/json/Importer.cpp:118-129). -/
def kind (o : ImportOrder) (vars : VarSet) (j : Json) : Res ItemKind :=
  match j.tryAccess "tunability" with
  | none => .ok .const
  | some t =>
    match t.toStr with
    | .ok t =>
      if t = ['Y'] then
        match j.tryAccess "Share" with
        | none => .ok (.tunable none)
        | some sh =>
          match group o vars sh with
          | .ok g => .ok (.tunable (some g.sorted))
          | .throw => .throw
          | .ub => .ub
      else .ok .const
    | .throw => .throw
    | .ub => .ub

/-- The part of `importPotential` (io/json/Importer.cpp:106-130) before the insertion. -/
def potential (tx : FloatText F) (o : ImportOrder) (vars : VarSet) (j : Json) : Res (Fn F × ItemKind) :=
  match factor tx o vars j with
  | .ok shape =>
    match j.tryAccess "weight" with
    | none => .ok (shape, .const)
    | some w =>
      match w.toStr with
      | .ok t =>
        match Fn.exponential shape (tx.parse t) with
        | .ok f =>
          match kind o vars j with
          | .ok k => .ok (f, k)
          | .throw => .throw
          | .ub => .ub
        | .throw => .throw
        | .ub => .ub
      | .throw => .throw
      | .ub => .ub
  | .throw => .throw
  | .ub => .ub

/-- `ImportHelper::importConst` and `importTunable` (src/io/Utils.cpp:48-64): the factors which share a weight
are put aside. `inserts` tells whether the model can have tunable factors. -/
def insert (inserts : Bool) (pending : List (Nat × VarSet)) (x : Fn F × ItemKind) :
    M (State F) (List (Nat × VarSet)) := fun s =>
  let s1 := (State.alloc x.1 s).1
  let p := s.heap.length
  let after : Out (State F) Unit → Out (State F) (List (Nat × VarSet))
    | .ok s2 _ => .ok s2 pending
    | .throw s2 => .throw s2
    | .ub => .ub
  match x.2 with
  | .const => after (State.addConstFactor (some p) s1)
  | .tunable none => after (if inserts then State.addTunable (some p) none s1 else State.addConstFactor (some p) s1)
  | .tunable (some g) =>
    if inserts then .ok s1 (pending ++ [(p, g)]) else after (State.addConstFactor (some p) s1)

/-- The loop on the potentials (io/json/Importer.cpp:155-157). -/
def potentials (tx : FloatText F) (o : ImportOrder) (vars : VarSet) (inserts : Bool) :
    List Json → List (Nat × VarSet) → M (State F) (List (Nat × VarSet))
  | [], pending, s => .ok s pending
  | j :: js, pending, s =>
    match potential tx o vars j with
    | .ok x =>
      match insert inserts pending x s with
      | .ok s1 pending' => potentials tx o vars inserts js pending' s1
      | .throw s1 => .throw s1
      | .ub => .ub
    | .throw => .throw s
    | .ub => .ub

/-- `ImportHelper::importCumulatedTunable` (src/io/Utils.cpp:66-76). The factors are put aside only by models with
tunable factors. -/
def cumulated (pending : List (Nat × VarSet)) : M (State F) Unit :=
  State.forEach (fun e => State.addTunable (some e.1) (some e.2)) pending

/-- `set_evidences` (io/json/Importer.h:55-65). -/
def setEvidences (o : ImportOrder) (evs : List (String × Nat)) : M (State F) Unit :=
  State.forEach (fun e => State.setEvidenceByName o.vars e.1 e.2) (o.evidences evs)

/-- The factors, then the factors put aside, then the evidences (io/json/Importer.cpp:153-159,
io/json/Importer.h:43-46). -/
def build (tx : FloatText F) (o : ImportOrder) (inserts : Bool) (r : Read) (js : List Json) : M (State F) Unit := fun s =>
  match potentials tx o r.vars inserts js [] s with
  | .ok s1 pending => State.andThen (cumulated pending) (setEvidences o r.evidences) s1
  | .throw s1 => .throw s1
  | .ub => .ub

/-- `Importer::importFromJson` (io/json/Importer.h:42-46) with `Importer::convert`
(io/json/Importer.cpp:133-160). -/
def importJson (tx : FloatText F) (o : ImportOrder) (inserts : Bool) (j : Json) : M (State F) Unit := fun s =>
  match j.index "Variables" with
  | .ok vs =>
    match Res.foldList (oneVariable o) ⟨[], []⟩ vs.items with
    | .ok r =>
      match j.index "Potentials" with
      | .ok ps => build tx o inserts r ps.items s
      | .throw => .throw s
      | .ub => .ub
    | .throw => .throw s
    | .ub => .ub
  | .throw => .throw s
  | .ub => .ub

end JsonIn
end EFG
