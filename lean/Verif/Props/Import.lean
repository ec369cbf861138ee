import Verif.Lemmas.ImportState
import Verif.Props.Xml
import Verif.Props.Safety
/- C54: importing documents which are not those of the exporter. -/

namespace EFG

section
variable {F : Type} [Arith F]

/-- C54: whatever the json document is and whatever the model is before, an import which returns or throws leaves a
model which is reached by public operations, so that what is proved about those holds, and which is the one before
with something added. If it returns there is a new factor for each element of "Potentials". -/
theorem C54_json {allowed : State F → GOp F → Prop} {s : State F} (h : Reach allowed s) {tx : FloatText F} {o : ImportOrder}
    (ho : o.Fair) {inserts : Bool} {j : Json} :
    (∀ t, JsonIn.importJson tx o inserts j s = .ok t () → Reach anyOp t ∧ s.Extends t ∧
      ∀ ps, j.tryAccess "Potentials" = some ps → t.factors.length = s.factors.length + ps.items.length) ∧
    ∀ t, JsonIn.importJson tx o inserts j s = .throw t → Reach anyOp t ∧ s.Extends t := by
  have h' : Reach anyOp s := Ex.Reach.mono (fun _ _ _ => trivial) h
  have key := fun k hk => JsonIn.import_brings (tx := tx) (inserts := inserts) ho (j := j) (Q := fun _ => True)
    (fun _ _ _ _ _ _ _ _ _ _ => trivial) (fun L _ => allows_any L) h' (k := k) hk
  have hk : ∃ k, ∀ ps, j.tryAccess "Potentials" = some ps → ps.items.length = k := by
    cases j.tryAccess "Potentials" with
    | none => exact ⟨0, fun ps h => by cases h⟩
    | some ps => exact ⟨ps.items.length, fun ps' h => by cases h; rfl⟩
  obtain ⟨k, hk⟩ := hk
  have := key k hk
  constructor
  · intro t ht
    rw [ht] at this
    exact ⟨this.1, this.2.1, fun ps hps => by rw [hk ps hps]; exact this.2.2⟩
  · intro t ht
    rw [ht] at this
    exact this

/-- C54: the import is defined.

Missing: documents without "Variables" or "Potentials", or with images without "v" (`C54_keys_violated`), and with
numbers which do not fit in an `int` (`C54_numbers_violated`). -/
theorem C54_json_defined_partial {allowed : State F → GOp F → Prop} {s : State F} (h : Reach allowed s) {tx : FloatText F}
    {o : ImportOrder} (ho : o.Fair) {inserts : Bool} {j : Json} (hc : j.Complete) :
    JsonIn.importJson tx o inserts j s ≠ .ub := by
  have h' : Reach anyOp s := Ex.Reach.mono (fun _ _ _ => trivial) h
  intro hu
  have hk : ∃ k, ∀ ps, j.tryAccess "Potentials" = some ps → ps.items.length = k := by
    cases j.tryAccess "Potentials" with
    | none => exact ⟨0, fun ps h => by cases h⟩
    | some ps => exact ⟨ps.items.length, fun ps' h => by cases h; rfl⟩
  obtain ⟨k, hk⟩ := hk
  have := JsonIn.import_brings (tx := tx) (inserts := inserts) ho (j := j) (Q := fun _ => True)
    (fun _ _ _ _ _ _ _ _ _ _ => trivial) (fun L _ => allows_any L) h' hk
  rw [hu] at this
  exact this hc

/-- C54: after the import of a document whose variables have all the same size, the operations of a model are still
defined (`C52_defined_partial`).

Missing: variables of different sizes in the same factor, whose messages are undefined (`C24_violated`). -/
theorem C54_json_prudent_partial {s : State F} (h : Reach Prudent s) {tx : FloatText F} {o : ImportOrder} (ho : o.Fair)
    {inserts : Bool} {j : Json} {n : Nat} (hn : j.Uniform n) {t : State F}
    (ht : JsonIn.importJson tx o inserts j s = .ok t () ∨ JsonIn.importJson tx o inserts j s = .throw t) :
    Reach Prudent t := by
  have hk : ∃ k, ∀ ps, j.tryAccess "Potentials" = some ps → ps.items.length = k := by
    cases j.tryAccess "Potentials" with
    | none => exact ⟨0, fun ps h => by cases h⟩
    | some ps => exact ⟨ps.items.length, fun ps' h => by cases h; rfl⟩
  obtain ⟨k, hk⟩ := hk
  have := JsonIn.import_brings (tx := tx) (inserts := inserts) ho (j := j) (Q := fun m => m = n)
    (fun vs hvs v hv x hx t' ht' m hm => by
      obtain ⟨h1, h2⟩ := hn vs hvs v hv x hx t' ht'
      rw [Text.atoSize_writes h1 h2] at hm
      cases hm; rfl)
    (fun L hL => allows_prudent hL) h hk
  rcases ht with ht | ht
  · rw [ht] at this; exact this.1
  · rw [ht] at this; exact this.1

/-- C54: the same for xml. The files with the values of factors are arbitrary. -/
theorem C54_xml {allowed : State F → GOp F → Prop} {s : State F} (h : Reach allowed s) {tx : FloatText F}
    {files : List Char → Option (List Char)} {o : ImportOrder} (ho : o.Fair) {inserts : Bool} {root : Tag} :
    (∀ t, XmlIn.importXml tx files o inserts root s = .ok t () → Reach anyOp t ∧ s.Extends t ∧
      t.factors.length = s.factors.length + (root.nestedOf "Potential").length) ∧
    ∀ t, XmlIn.importXml tx files o inserts root s = .throw t → Reach anyOp t ∧ s.Extends t := by
  have h' : Reach anyOp s := Ex.Reach.mono (fun _ _ _ => trivial) h
  have := XmlIn.import_brings (tx := tx) (files := files) (inserts := inserts) ho (root := root) (Q := fun _ => True)
    (fun _ _ _ _ _ _ => trivial) (fun L _ => allows_any L) h'
  constructor
  · intro t ht
    rw [ht] at this
    exact this
  · intro t ht
    rw [ht] at this
    exact this

/-- C54: the import of xml is defined.

Missing: numbers which do not fit in an `int`, and files of values with blank lines, for example after the newline at
their end (`C54_lines_violated`). -/
theorem C54_xml_defined_partial {allowed : State F → GOp F → Prop} {s : State F} (h : Reach allowed s) {tx : FloatText F}
    {files : List Char → Option (List Char)} {o : ImportOrder} (ho : o.Fair) {inserts : Bool} {root : Tag}
    (hc : root.Complete files) : XmlIn.importXml tx files o inserts root s ≠ .ub := by
  have h' : Reach anyOp s := Ex.Reach.mono (fun _ _ _ => trivial) h
  intro hu
  have := XmlIn.import_brings (tx := tx) (files := files) (inserts := inserts) ho (root := root) (Q := fun _ => True)
    (fun _ _ _ _ _ _ => trivial) (fun L _ => allows_any L) h'
  rw [hu] at this
  exact this hc

/-- C54: the same for xml. -/
theorem C54_xml_prudent_partial {s : State F} (h : Reach Prudent s) {tx : FloatText F}
    {files : List Char → Option (List Char)} {o : ImportOrder} (ho : o.Fair) {inserts : Bool} {root : Tag} {n : Nat}
    (hn : root.Uniform n) {t : State F}
    (ht : XmlIn.importXml tx files o inserts root s = .ok t () ∨ XmlIn.importXml tx files o inserts root s = .throw t) :
    Reach Prudent t := by
  have := XmlIn.import_brings (tx := tx) (files := files) (inserts := inserts) ho (root := root) (Q := fun m => m = n)
    (fun t' ht' x hx m hm => by
      obtain ⟨h1, h2⟩ := hn t' ht' x hx
      rw [Text.atoSize_writes h1 h2] at hm
      cases hm; rfl)
    (fun L hL => allows_prudent hL) h
  rcases ht with ht | ht
  · rw [ht] at this; exact this.1
  · rw [ht] at this; exact this.1

end

/-! ### Examples -/

namespace Ex

theorem digits_bound (ds : List Char) (h : ∀ c ∈ ds, c ∈ "0123456789".toList) : ∀ x,
    ds.foldl (fun x c => 10 * x + (c.toNat - '0'.toNat)) x < (x + 1) * 10 ^ ds.length := by
  induction ds with
  | nil => intro x; simp
  | cons c ds ih =>
    intro x
    have h1 : c.toNat - '0'.toNat ≤ 9 := by
      have : ∀ c ∈ "0123456789".toList, c.toNat - '0'.toNat ≤ 9 := by decide
      exact this c (h c (by simp))
    have h2 := ih (fun c hc => h c (by simp [hc])) (10 * x + (c.toNat - '0'.toNat))
    rw [List.foldl_cons, List.length_cons, Nat.pow_succ]
    refine Nat.lt_of_lt_of_le h2 ?_
    have : 10 * x + (c.toNat - '0'.toNat) + 1 ≤ 10 * (x + 1) := by omega
    calc _ ≤ 10 * (x + 1) * 10 ^ ds.length := Nat.mul_le_mul_right _ this
      _ = _ := by rw [Nat.mul_comm 10, Nat.mul_assoc, Nat.mul_comm 10]

/-- A short text fits. -/
theorem fits_short {l : List Char} (h : l.length ≤ 9) : FitsInt l := by
  intro ws sign ds rest he _ _ hd
  have h1 := digits_bound ds hd 0
  have h2 : ds.length ≤ 9 := by
    have := congrArg List.length he
    simp only [List.length_append] at this
    omega
  have h3 : (10 : Nat) ^ ds.length ≤ 10 ^ 9 := Nat.pow_le_pow_right (by omega) h2
  have h4 : (0 + 1) * 10 ^ ds.length = 10 ^ ds.length := by simp
  rw [h4] at h1
  omega

def shortText (x : Json) : Bool :=
  match x.toStr with
  | .ok t => decide (t.length ≤ 9)
  | _ => true

theorem shortText_fits {x : Json} (h : shortText x = true) : x.Fits := by
  intro t ht
  unfold shortText at h
  rw [ht] at h
  exact fits_short (by simpa using h)

def onKey (j : Json) (k : String) (p : Json → Bool) : Bool :=
  match j.tryAccess k with
  | some x => p x
  | none => true

theorem onKey_spec {j : Json} {k : String} {p : Json → Bool} (h : onKey j k p = true) {x : Json} (hx : j.tryAccess k = some x) :
    p x = true := by
  unfold onKey at h
  rw [hx] at h
  exact h

def completeJson (j : Json) : Bool :=
  (j.tryAccess "Variables").isSome && (j.tryAccess "Potentials").isSome &&
  onKey j "Variables" (fun vs => vs.items.all (fun v => ["Size", "evidence"].all (fun k => onKey v k shortText))) &&
  onKey j "Potentials" (fun ps => ps.items.all (fun p => onKey p "Distr_val" (fun d => d.items.all (fun e =>
    (e.tryAccess "v").isSome && onKey e "v" (fun v => v.items.all shortText)))))

theorem completeJson_spec {j : Json} (h : completeJson j = true) : j.Complete := by
  unfold completeJson at h
  simp only [Bool.and_eq_true] at h
  obtain ⟨⟨⟨h1, h2⟩, h3⟩, h4⟩ := h
  refine ⟨fun _ _ => Option.isSome_iff_exists.mp h1, fun _ _ => Option.isSome_iff_exists.mp h2, ?_, ?_⟩
  · intro vs hvs v hv k hk x hx
    exact shortText_fits (onKey_spec (List.all_eq_true.mp (List.all_eq_true.mp (onKey_spec h3 hvs) v hv) k hk) hx)
  · intro ps hps p hp d hd e he
    have := List.all_eq_true.mp (onKey_spec (List.all_eq_true.mp (onKey_spec h4 hps) p hp) hd) e he
    rw [Bool.and_eq_true] at this
    exact ⟨fun _ _ => Option.isSome_iff_exists.mp this.1,
      fun v hv x hx => shortText_fits (List.all_eq_true.mp (onKey_spec this.2 hv) x hx)⟩

def str (s : String) : Json := .str s.toList

def varJson (name size : String) (extra : List (String × Json)) : Json := .obj ([("name", str name), ("Size", str size)] ++ extra)

/-- A document which the exporter does not write: a comment, a factor given by its correlation, images in an object,
and a factor which shares its weight with one of the receiver. -/
def document (other : String) : Json := .obj [
  ("comment", .scalar),
  ("Variables", .arr [varJson "A" "2" [], varJson "B" " +2" [("evidence", str "1")], varJson other "2" []]),
  ("Potentials", .arr [
    .obj [("Variables", .arr [str "A", str "B"]), ("Correlation", str "F"), ("weight", str "0.5")],
    .obj [("Variables", str "A"), ("weight", str "3"), ("tunability", str "Y"),
      ("Distr_val", .obj [("a", .obj [("v", str "1"), ("D", str "2")])])],
    .obj [("Variables", str other), ("weight", str "4"), ("tunability", str "Y"), ("Share", str "A"),
      ("Distr_val", .arr [.obj [("v", str "0"), ("D", str "1.5")]])]])]

/-- Importing in a model. -/
def load (inserts : Bool) (j : Json) (s : State (Ext ℚ)) : Out (State (Ext ℚ)) Unit :=
  JsonIn.importJson Text.fixed reading inserts j s

/-- The state afterwards. -/
def stateOf (s : State (Ext ℚ)) : Out (State (Ext ℚ)) Unit → State (Ext ℚ)
  | .ok t _ => t
  | .throw t => t
  | .ub => s

def isOk : Out (State (Ext ℚ)) Unit → Bool
  | .ok _ _ => true
  | _ => false

def isThrow : Out (State (Ext ℚ)) Unit → Bool
  | .throw _ => true
  | _ => false

def isUb : Out (State (Ext ℚ)) Unit → Bool
  | .ub => true
  | _ => false

theorem isOk_spec {s : State (Ext ℚ)} {o : Out (State (Ext ℚ)) Unit} (h : isOk o = true) : o = .ok (stateOf s o) () := by
  cases o with
  | ok t u => rfl
  | throw t => cases h
  | ub => cases h

theorem isThrow_spec {s : State (Ext ℚ)} {o : Out (State (Ext ℚ)) Unit} (h : isThrow o = true) : o = .throw (stateOf s o) := by
  cases o with
  | ok t u => cases h
  | throw t => rfl
  | ub => cases h

theorem isUb_spec {o : Out (State (Ext ℚ)) Unit} (h : isUb o = true) : o = .ub := by
  cases o with
  | ok t u => cases h
  | throw t => cases h
  | ub => rfl

end Ex

/-- The document is read into the field with two clusters and an evidence. A cluster with two new factors is made, a
variable is observed, and the factors and evidences of the field are kept. -/
example : Reach FromInside Ex.field ∧ Ex.reading.Fair ∧ (Ex.document "C").Complete ∧
    ∃ t, JsonIn.importJson Text.fixed Ex.reading true (Ex.document "C") Ex.field = .ok t () ∧
      t.factors = Ex.field.factors ++ [10, 11, 12] ∧ t.tunableClusters = Ex.field.tunableClusters ++ [[11, 12]] ∧
      t.evidences.map (fun e => (e.1.name, e.2)) = [("Z", 1), ("B", 1)] ∧ Ex.weightAt t 12 = some (.val 3) ∧
      Ex.field.Extends t := by
  have h : JsonIn.importJson Text.fixed Ex.reading true (Ex.document "C") Ex.field = .ok (Ex.stateOf Ex.field
      (Ex.load true (Ex.document "C") Ex.field)) () := Ex.isOk_spec (by decide +kernel)
  exact ⟨Ex.field_inside, Ex.reading_fair, Ex.completeJson_spec (by decide +kernel), _, h, by decide +kernel,
    by decide +kernel, by decide +kernel, by decide +kernel, ((C54_json Ex.field_inside Ex.reading_fair).1 _ h).2.1⟩

/-- The same document with a variable of the field in the place of C: it is refused, because the new variable is not
the one of the field, and what was read before stays. -/
example : Reach FromInside Ex.field ∧ Ex.reading.Fair ∧ (Ex.document "X").Complete ∧
    ∃ t, JsonIn.importJson Text.fixed Ex.reading true (Ex.document "X") Ex.field = .throw t ∧
      t.factors = Ex.field.factors ++ [10, 11] ∧ Ex.field.Extends t := by
  have h : JsonIn.importJson Text.fixed Ex.reading true (Ex.document "X") Ex.field = .throw (Ex.stateOf Ex.field
      (Ex.load true (Ex.document "X") Ex.field)) := Ex.isThrow_spec (by decide +kernel)
  exact ⟨Ex.field_inside, Ex.reading_fair, Ex.completeJson_spec (by decide +kernel), _, h, by decide +kernel,
    ((C54_json Ex.field_inside Ex.reading_fair).2 _ h).2⟩

namespace Ex

theorem writes_two : Writes 2 "2".toList := by
  refine ⟨by decide, by decide, by decide⟩

/-- A document with the sizes as the exporter writes them. -/
def plain : Json := .obj [
  ("Variables", .arr [varJson "A" "2" [("evidence", str "0")], varJson "B" "2" []]),
  ("Potentials", .arr [.obj [("Variables", .arr [str "A", str "B"]), ("Correlation", str "T")]])]

theorem plain_uniform : plain.Uniform 2 := by
  intro vs hvs v hv x hx t ht
  have h0 : plain.tryAccess "Variables" = some (.arr [varJson "A" "2" [("evidence", str "0")], varJson "B" "2" []]) := rfl
  rw [h0] at hvs
  cases hvs
  have h1 : x = str "2" := by
    rcases List.mem_cons.mp hv with rfl | hv
    · cases hx; rfl
    · rcases List.mem_cons.mp hv with rfl | hv
      · cases hx; rfl
      · cases hv
  subst h1
  cases ht
  exact ⟨writes_two, by decide⟩

end Ex

/-- The document is imported in a path of three variables, one of which is observed. -/
example : Reach Prudent (Ex.after (Ex.path ++ [.observe Ex.Z 1])) ∧ Ex.plain.Uniform 2 ∧ Ex.plain.Complete ∧
    ∃ t, JsonIn.importJson Text.fixed Ex.reading true Ex.plain (Ex.after (Ex.path ++ [.observe Ex.Z 1])) = .ok t () ∧
      Reach Prudent t ∧ t.vars.length = 5 ∧ t.evidences.length = 2 := by
  have h : JsonIn.importJson Text.fixed Ex.reading true Ex.plain (Ex.after (Ex.path ++ [.observe Ex.Z 1])) = .ok (Ex.stateOf
      (Ex.after (Ex.path ++ [.observe Ex.Z 1])) (Ex.load true Ex.plain (Ex.after (Ex.path ++ [.observe Ex.Z 1])))) () :=
    Ex.isOk_spec (by decide +kernel)
  have hr : Reach Prudent (Ex.after (Ex.path ++ [.observe Ex.Z 1])) := Ex.after_prudent _ (by decide +kernel)
  exact ⟨hr, Ex.plain_uniform, Ex.completeJson_spec (by decide +kernel), _, h,
    C54_json_prudent_partial hr Ex.reading_fair Ex.plain_uniform (Or.inl h), by decide +kernel, by decide +kernel⟩

namespace Ex

/-- A document in xml with a factor whose images are in a file. -/
def page (file : String) : Tag := .mk [] [
  ("Potential", .mk [("Source", file.toList), ("var", "A".toList), ("var", "B".toList)] []),
  ("Variable", .mk [("Size", "2".toList), ("name", "A".toList)] []),
  ("Variable", .mk [("name", "B".toList), ("Size", "2".toList), ("evidence", "1".toList)] []),
  ("Potential", .mk [("var", "A".toList), ("weight", "2".toList), ("tunability", ['Y'])]
    [("Distr_val", .mk [("v", "1".toList), ("D", "3".toList)] [])])]

/-- Two files with the same lines. The second one ends with a newline. -/
def disk (name : List Char) : Option (List Char) :=
  if name = "images".toList then some "0 1 2\n1  1 2.5".toList
  else if name = "closed".toList then some "0 1 2\n1  1 2.5\n".toList
  else none

def shortChars (l : List Char) : Bool := decide (l.length ≤ 9)

def onAttribute (t : Tag) (k : String) (p : List Char → Bool) : Bool :=
  match t.tryAttribute k with
  | some x => p x
  | none => true

theorem onAttribute_spec {t : Tag} {k : String} {p : List Char → Bool} (h : onAttribute t k p = true) {x : List Char}
    (hx : t.tryAttribute k = some x) : p x = true := by
  unfold onAttribute at h
  rw [hx] at h
  exact h

def shortLines (content : List Char) : Bool :=
  (Text.lines content).all (fun l => !(Text.words [] l).isEmpty && (Text.words [] l).all shortChars)

def completeTag (files : List Char → Option (List Char)) (root : Tag) : Bool :=
  (root.nestedOf "Variable").all (fun t => ["Size", "evidence"].all (fun k => onAttribute t k shortChars)) &&
  (root.nestedOf "Potential").all (fun t => (t.nestedOf "Distr_val").all (fun e => (e.attributesOf "v").all shortChars) &&
    onAttribute t "Source" (fun name => match files name with | some content => shortLines content | none => true))

theorem completeTag_spec {files : List Char → Option (List Char)} {root : Tag} (h : completeTag files root = true) :
    root.Complete files := by
  unfold completeTag at h
  rw [Bool.and_eq_true] at h
  obtain ⟨h1, h2⟩ := h
  have h3 : ∀ l, shortChars l = true → FitsInt l := fun l hl => fits_short (by unfold shortChars at hl; simpa using hl)
  refine ⟨?_, ?_, ?_⟩
  · intro t ht k hk x hx
    exact h3 x (onAttribute_spec (List.all_eq_true.mp (List.all_eq_true.mp h1 t ht) k hk) hx)
  · intro t ht e he x hx
    have := List.all_eq_true.mp h2 t ht
    rw [Bool.and_eq_true] at this
    exact h3 x (List.all_eq_true.mp (List.all_eq_true.mp this.1 e he) x hx)
  · intro t ht name hname content hcontent ls hls l hl ws hws
    have := List.all_eq_true.mp h2 t ht
    rw [Bool.and_eq_true] at this
    have h4 := onAttribute_spec this.2 hname
    rw [hcontent] at h4
    simp only at h4
    unfold shortLines at h4
    rw [Text.lines_eq hls] at h4
    have h5 := List.all_eq_true.mp h4 l hl
    rw [Text.words_spells hws, Bool.and_eq_true] at h5
    refine ⟨?_, fun w hw => h3 w (List.all_eq_true.mp h5.2 w hw)⟩
    intro h6
    rw [h6] at h5
    simp at h5

theorem page_uniform (file : String) : (page file).Uniform 2 := by
  intro t ht x hx
  have h0 : (page file).nestedOf "Variable" = [.mk [("Size", "2".toList), ("name", "A".toList)] [],
      .mk [("name", "B".toList), ("Size", "2".toList), ("evidence", "1".toList)] []] := rfl
  rw [h0] at ht
  have h1 : x = "2".toList := by
    rcases List.mem_cons.mp ht with rfl | ht
    · cases hx; rfl
    · rcases List.mem_cons.mp ht with rfl | ht
      · cases hx; rfl
      · cases ht
  subst h1
  exact ⟨writes_two, by decide⟩

/-- Importing xml in a model. -/
def loadXml (root : Tag) (s : State (Ext ℚ)) : Out (State (Ext ℚ)) Unit := XmlIn.importXml Text.fixed disk reading true root s

end Ex

/-- The page with the file is imported in the path with an observed variable. -/
example : Reach Prudent (Ex.after (Ex.path ++ [.observe Ex.Z 1])) ∧ (Ex.page "images").Uniform 2 ∧
    (Ex.page "images").Complete Ex.disk ∧
    ∃ t, XmlIn.importXml Text.fixed Ex.disk Ex.reading true (Ex.page "images") (Ex.after (Ex.path ++ [.observe Ex.Z 1])) = .ok t () ∧
      Reach Prudent t ∧ State.Extends (Ex.after (Ex.path ++ [.observe Ex.Z 1])) t ∧
      t.factors.length = (Ex.after (Ex.path ++ [.observe Ex.Z 1])).factors.length + 2 ∧
      t.vars.length = 5 ∧ t.evidences.length = 2 := by
  have h : XmlIn.importXml Text.fixed Ex.disk Ex.reading true (Ex.page "images") (Ex.after (Ex.path ++ [.observe Ex.Z 1])) =
      .ok (Ex.stateOf (Ex.after (Ex.path ++ [.observe Ex.Z 1])) (Ex.loadXml (Ex.page "images")
        (Ex.after (Ex.path ++ [.observe Ex.Z 1])))) () := Ex.isOk_spec (by decide +kernel)
  have hr : Reach Prudent (Ex.after (Ex.path ++ [.observe Ex.Z 1])) := Ex.after_prudent _ (by decide +kernel)
  have h' := (C54_xml hr Ex.reading_fair).1 _ h
  exact ⟨hr, Ex.page_uniform _, Ex.completeTag_spec (by decide +kernel), _, h,
    C54_xml_prudent_partial hr Ex.reading_fair (Ex.page_uniform _) (Or.inl h), h'.2.1, h'.2.2, by decide +kernel, by decide +kernel⟩

/-- C54 is violated by a document without "Potentials", and by one with an image without "v": the keys are looked up
with `operator[]` of a constant value, which is undefined when they are missing. -/
theorem C54_keys_violated : ∃ s : State (Ext ℚ), Reach anyOp s ∧ Ex.reading.Fair ∧
    JsonIn.importJson Text.fixed Ex.reading true (.obj [("Variables", .arr [Ex.varJson "A" "2" []])]) s = .ub ∧
    JsonIn.importJson Text.fixed Ex.reading true (.obj [("Variables", .arr [Ex.varJson "A" "2" []]),
      ("Potentials", .arr [.obj [("Variables", .arr [Ex.str "A"]), ("Distr_val", .arr [.obj [("D", Ex.str "1")]])]])]) s = .ub :=
  ⟨State.initial [], .init (fun f hf => by cases hf), Ex.reading_fair, Ex.isUb_spec (by decide +kernel),
    Ex.isUb_spec (by decide +kernel)⟩

/-- C54 is violated by numbers which do not fit in an `int`: the behaviour of `std::atoi` is undefined. The documents
have all their keys. -/
theorem C54_numbers_violated : ∃ s : State (Ext ℚ), Reach anyOp s ∧ Ex.reading.Fair ∧
    JsonIn.importJson Text.fixed Ex.reading true (.obj [("Variables", .arr [Ex.varJson "A" "4294967298" []]),
      ("Potentials", .arr [])]) s = .ub ∧
    XmlIn.importXml Text.fixed Ex.disk Ex.reading true (.mk [] [("Variable", .mk [("name", "A".toList), ("Size", "2".toList),
      ("evidence", "-2147483649".toList)] [])]) s = .ub :=
  ⟨State.initial [], .init (fun f hf => by cases hf), Ex.reading_fair, Ex.isUb_spec (by decide +kernel),
    Ex.isUb_spec (by decide +kernel)⟩

/-- C54 is violated by a file of values which ends with a newline, as text files do: after it there is a line without
words. The same file without the last newline is imported. -/
theorem C54_lines_violated : ∃ s : State (Ext ℚ), Reach anyOp s ∧ Ex.reading.Fair ∧
    (∃ t, XmlIn.importXml Text.fixed Ex.disk Ex.reading true (Ex.page "images") s = .ok t ()) ∧
    XmlIn.importXml Text.fixed Ex.disk Ex.reading true (Ex.page "closed") s = .ub :=
  ⟨State.initial [], .init (fun f hf => by cases hf), Ex.reading_fair, ⟨_, Ex.isOk_spec (s := State.initial []) (by decide +kernel)⟩,
    Ex.isUb_spec (by decide +kernel)⟩

/-- C54 is violated by a document which is refused, because one of its factors is: the factors which come before it
stay in the model. A tunable factor which shares its weight with unknown variables stays, too, and has no tuner. -/
theorem C54_refused_violated :
    (∃ s t : State (Ext ℚ), Reach FromInside s ∧
      JsonIn.importJson Text.fixed Ex.reading true (Ex.document "X") s = .throw t ∧ s.factors = [5, 0, 3, 2] ∧
      t.factors = [5, 0, 3, 2, 10, 11]) ∧
    ∃ t : State (Ext ℚ), JsonIn.importJson Text.fixed Ex.reading true (.obj [
        ("Variables", .arr [Ex.varJson "A" "2" [], Ex.varJson "B" "2" []]),
        ("Potentials", .arr [.obj [("Variables", .arr [Ex.str "A", Ex.str "B"]), ("Correlation", Ex.str "T"),
          ("weight", Ex.str "1"), ("tunability", Ex.str "Y"), ("Share", Ex.str "A")]])]) (State.initial []) = .throw t ∧
      t.tunables = [0] ∧ t.tunableClusters = [] :=
  ⟨⟨Ex.field, _, Ex.field_inside, Ex.isThrow_spec (s := Ex.field) (by decide +kernel), by decide +kernel, by decide +kernel⟩,
    ⟨_, Ex.isThrow_spec (s := State.initial []) (by decide +kernel), by decide +kernel, by decide +kernel⟩⟩

end EFG
