import Verif.Model.Json
/-
Models written to xml and read from xml: io/xml/Exporter.cpp, io/xml/Importer.{h,cpp}.

A tag of the xml library (`xmlPrs::Tag`) has attributes and nested tags, both in an `unordered_multimap`. Here they
are lists, visited from the beginning. The library is not in the repository: the text which `print` makes of a tag
and the tags which `parse_xml` makes of a text are not modelled. `Spec/Xml.lean` says which tags are expected back.
-/

namespace EFG

/-- A tag: its attributes and the tags nested in it, with their names. The root is a tag, too. -/
inductive Tag where
  | mk (attributes : List (String × List Char)) (nested : List (String × Tag))

namespace Tag

/-- `getAttributes`. -/
def attributes : Tag → List (String × List Char)
  | .mk a _ => a

/-- `getNested`. -/
def nested : Tag → List (String × Tag)
  | .mk _ n => n

/-- `try_access_attribute` (io/xml/Importer.cpp:18-25). -/
def tryAttribute (t : Tag) (name : String) : Option (List Char) :=
  (t.attributes.find? (fun e => e.1 == name)).map Prod.snd

/-- `access_attribute` (io/xml/Importer.cpp:27-34). -/
def access (t : Tag) (name : String) : Res (List Char) :=
  match t.tryAttribute name with
  | some x => .ok x
  | none => .throw

/-- The attributes visited by `for_each_key` (io/xml/Importer.cpp:36-43). -/
def attributesOf (t : Tag) (name : String) : List (List Char) :=
  (t.attributes.filter (fun e => e.1 == name)).map Prod.snd

/-- The nested tags visited by `for_each_key` (io/xml/Importer.cpp:36-43). -/
def nestedOf (t : Tag) (name : String) : List Tag :=
  (t.nested.filter (fun e => e.1 == name)).map Prod.snd

end Tag

/-! ### Exporter -/

namespace XmlOut
variable {F : Type} [Arith F]

/-- `printVariable` (io/xml/Exporter.cpp:19-26), and the evidence (Exporter.cpp:77). -/
def oneVariable (v : Var) (evidence : Option Nat) : Tag :=
  .mk ([("name", v.name.toList), ("Size", Text.ofNat v.size)] ++
    match evidence with
    | none => []
    | some x => [("evidence", Text.ofNat x)]) []

/-- `printGroup` (io/xml/Exporter.cpp:28-33): the new attributes. -/
def group (vars : List Var) : List (String × List Char) := vars.map (fun v => ("var", v.name.toList))

/-- One tag "Distr_val" (io/xml/Exporter.cpp:41-46). -/
def entry (tx : FloatText F) (e : List Nat × F) : Tag :=
  .mk (("D", tx.print e.2) :: e.1.map (fun x => ("v", Text.ofNat x))) []

/-- `printPotential` (io/xml/Exporter.cpp:35-49), with the attributes `extra` and the nested tags `more` which are
added later to the tag. -/
def potential (tx : FloatText F) (f : Fn F) (extra : List (String × List Char)) (more : List (String × Tag)) : Res Tag :=
  match f.nonNullEntries false with
  | .ok es => .ok (.mk (group f.vars.group ++ extra) (es.map (fun e => ("Distr_val", entry tx e)) ++ more))
  | .throw => .throw
  | .ub => .ub

/-- `printExpPotential` (io/xml/Exporter.cpp:51-56). The weight of a function which is not exponential is not
accessible in C++. -/
def expPotential (tx : FloatText F) (f : Fn F) (extra : List (String × List Char)) (more : List (String × Tag)) : Res Tag :=
  match f.weight with
  | some w => potential tx f (("weight", tx.print w) :: extra) more
  | none => .ub

/-- A constant factor (io/xml/Exporter.cpp:80-90). -/
def const (tx : FloatText F) (s : State F) (p : Nat) : Res Tag :=
  match s.deref p with
  | .ok f =>
    if f.weight.isSome then expPotential tx f [("tunability", ['N'])] [] else potential tx f [] []
  | .throw => .throw
  | .ub => .ub

/-- A tunable factor (io/xml/Exporter.cpp:96-112), with the variables of the factor whose weight it shares. -/
def tunable (tx : FloatText F) (s : State F) (share : Option (List Var)) (p : Nat) : Res Tag :=
  match s.deref p with
  | .ok f =>
    expPotential tx f [("tunability", ['Y'])]
      (match share with
      | none => []
      | some vs => [("Share", .mk (group vs) [])])
  | .throw => .throw
  | .ub => .ub

/-- The visit of a cluster (io/xml/Exporter.cpp:96-112). `front()` of an empty cluster is undefined. -/
def cluster (tx : FloatText F) (s : State F) (c : List Nat) : Res (List Tag) :=
  match c with
  | [] => .ub
  | p :: ps =>
    match tunable tx s none p, s.deref p with
    | .ok j, .ok f =>
      match Res.mapList (tunable tx s (some f.vars.group)) ps with
      | .ok js => .ok (j :: js)
      | .throw => .throw
      | .ub => .ub
    | .throw, _ => .throw
    | _, .throw => .throw
    | _, _ => .ub

/-- `Exporter::convert` (io/xml/Exporter.cpp:66-119), in the orders in which the hash containers of the model are
visited. A model without tunable factors has no tuners. -/
def convert (tx : FloatText F) (o : VisitOrder) (s : State F) : Res Tag :=
  match Res.mapList (const tx s) (o.factors s.consts) with
  | .ok cs =>
    match Res.mapList (cluster tx s) s.tunableClusters with
    | .ok ts =>
      .ok (.mk [] (
        (o.vars s.hiddenVariables).map (fun v => ("Variable", oneVariable v none)) ++
        (o.evidences s.evidences).map (fun e => ("Variable", oneVariable e.1 (some e.2))) ++
        (cs ++ ts.flatten).map (fun t => ("Potential", t))))
    | .throw => .throw
    | .ub => .ub
  | .throw => .throw
  | .ub => .ub

end XmlOut

/-! ### Importer -/

namespace XmlIn
variable {F : Type} [Arith F]
open JsonIn (Read emplaceEvidence)

/-- Adds a variable (io/xml/Importer.cpp:160-169). -/
def addVariable (r : Read) (v : Var) (flag : Option (List Char)) : Res Read :=
  if VarSet.mem r.vars v then .throw
  else
    match flag with
    | none => .ok { r with vars := VarSet.emplace r.vars v }
    | some text =>
      match Text.atoSize text with
      | .ok val => .ok ⟨VarSet.emplace r.vars v, emplaceEvidence r.evidences v.name val⟩
      | .throw => .throw
      | .ub => .ub

/-- One round of the loop on the variables (io/xml/Importer.cpp:156-170). -/
def oneVariable (o : ImportOrder) (r : Read) (t : Tag) : Res Read :=
  match t.access "name" with
  | .ok name =>
    match t.access "Size" with
    | .ok size =>
      match Text.atoSize size with
      | .ok n =>
        match makeVariable (o.fresh r.vars.length) n (String.ofList name) with
        | .ok v => addVariable r v (t.tryAttribute "evidence")
        | .throw => .throw
        | .ub => .ub
      | .throw => .throw
      | .ub => .ub
    | .throw => .throw
    | .ub => .ub
  | .throw => .throw
  | .ub => .ub

/-- `findVariable` (io/xml/Importer.cpp:45-55). -/
def findVariable (o : ImportOrder) (vars : VarSet) (name : List Char) : Res Var :=
  match (o.found vars).find? (fun v => v.name == String.ofList name) with
  | some v => .ok v
  | none => .throw

/-- `importGroup` (io/xml/Importer.cpp:57-68). -/
def group (o : ImportOrder) (vars : VarSet) (t : Tag) : Res Group :=
  match Res.mapList (findVariable o vars) (t.attributesOf "var") with
  | .ok l => if l.length ≠ 1 ∧ l.length ≠ 2 then .throw else Group.ofSoup l
  | .throw => .throw
  | .ub => .ub

/-- One tag "Distr_val" (io/xml/Importer.cpp:99-110). -/
def entry (tx : FloatText F) (f : Fn F) (t : Tag) : Res (Fn F) :=
  match Res.mapList Text.atoSize (t.attributesOf "v") with
  | .ok comb =>
    match t.access "D" with
    | .ok d =>
      match Fn.mutableSet comb (tx.parse d) f with
      | .ok f' _ => .ok f'
      | .throw _ => .throw
      | .ub => .ub
    | .throw => .throw
    | .ub => .ub
  | .throw => .throw
  | .ub => .ub

/-- The images of a factor without "Correlation" (io/xml/Importer.cpp:90-112). `files` gives the content of the file
`prefix + "/" + name`, if it can be opened. -/
def images (tx : FloatText F) (files : List Char → Option (List Char)) (g : Group) (t : Tag) : Res (Fn F) :=
  match t.tryAttribute "Source" with
  | some name =>
    match Text.importValues tx (files name) (Fn.ofGroup g) with
    | .ok f _ => .ok f
    | .throw _ => .throw
    | .ub => .ub
  | none => Res.foldList (entry tx) (Fn.ofGroup g) (t.nestedOf "Distr_val")

/-- `importFactor` (io/xml/Importer.cpp:70-113). -/
def factor (tx : FloatText F) (files : List Char → Option (List Char)) (o : ImportOrder) (vars : VarSet) (t : Tag) :
    Res (Fn F) :=
  match group o vars t with
  | .ok g =>
    match t.tryAttribute "Correlation" with
    | none => images tx files g t
    | some c =>
      if c = ['T'] then Fn.correlated g
      else if c = ['F'] then Fn.antiCorrelated g
      else .throw
  | .throw => .throw
  | .ub => .ub

/-- Whether a factor with a weight is tunable, and with which factor it shares the weight
(io/xml/Importer.cpp:127-139). -/
def kind (o : ImportOrder) (vars : VarSet) (t : Tag) : Res ItemKind :=
  if t.tryAttribute "tunability" = some ['Y'] then
    match t.nestedOf "Share" with
    | [] => .ok (.tunable none)
    | sh :: _ =>
      match group o vars sh with
      | .ok g => .ok (.tunable (some g.sorted))
      | .throw => .throw
      | .ub => .ub
  else .ok .const

/-- The part of `importPotential` (io/xml/Importer.cpp:115-140) before the insertion. -/
def potential (tx : FloatText F) (files : List Char → Option (List Char)) (o : ImportOrder) (vars : VarSet) (t : Tag) :
    Res (Fn F × ItemKind) :=
  match factor tx files o vars t with
  | .ok shape =>
    match t.tryAttribute "weight" with
    | none => .ok (shape, .const)
    | some w =>
      match Fn.exponential shape (tx.parse w) with
      | .ok f =>
        match kind o vars t with
        | .ok k => .ok (f, k)
        | .throw => .throw
        | .ub => .ub
      | .throw => .throw
      | .ub => .ub
  | .throw => .throw
  | .ub => .ub

/-- The loop on the potentials (io/xml/Importer.cpp:172-177). -/
def potentials (tx : FloatText F) (files : List Char → Option (List Char)) (o : ImportOrder) (vars : VarSet)
    (inserts : Bool) : List Tag → List (Nat × VarSet) → M (State F) (List (Nat × VarSet))
  | [], pending, s => .ok s pending
  | t :: ts, pending, s =>
    match potential tx files o vars t with
    | .ok x =>
      match JsonIn.insert inserts pending x s with
      | .ok s1 pending' => potentials tx files o vars inserts ts pending' s1
      | .throw s1 => .throw s1
      | .ub => .ub
    | .throw => .throw s
    | .ub => .ub

/-- The factors, then the factors put aside, then the evidences (io/xml/Importer.cpp:172-179,
io/xml/Importer.h:27-37). -/
def build (tx : FloatText F) (files : List Char → Option (List Char)) (o : ImportOrder) (inserts : Bool) (r : Read)
    (ts : List Tag) : M (State F) Unit := fun s =>
  match potentials tx files o r.vars inserts ts [] s with
  | .ok s1 pending => State.andThen (JsonIn.cumulated pending) (JsonIn.setEvidences o r.evidences) s1
  | .throw s1 => .throw s1
  | .ub => .ub

/-- `Importer::importFromFile` (io/xml/Importer.h:27-37) with `Importer::convert` (io/xml/Importer.cpp:143-180), from
the root of the parsed file. -/
def importXml (tx : FloatText F) (files : List Char → Option (List Char)) (o : ImportOrder) (inserts : Bool)
    (root : Tag) : M (State F) Unit := fun s =>
  match Res.foldList (oneVariable o) ⟨[], []⟩ (root.nestedOf "Variable") with
  | .ok r => build tx files o inserts r (root.nestedOf "Potential") s
  | .throw => .throw s
  | .ub => .ub

end XmlIn
end EFG
