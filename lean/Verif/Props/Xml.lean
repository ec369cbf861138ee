import Verif.Lemmas.XmlTrip
import Verif.Props.Json
/- C53: models written to xml and read again. -/

namespace EFG

section
variable {F : Type} [Arith F]

/-- C53: a model with constant and tunable factors which is written to xml and read into an empty model gives the
same model: the variables with their names and sizes, the evidences, the factors with the same images and weights,
the tunable factors and the clusters of factors which share a weight. It holds for all the orders in which the
containers are visited, for all the orders in which the library gives back the nested tags, and whatever the
addresses of the new variables are.

Missing: isolated variables (`C53_isolated_violated`), variables with the same name (`C53_names_violated`), images and
weights which are not read as they were printed (`C53_precision_violated`), sizes above the range of `int`, the
sharing which is not determined by the variables of the factors (`C53_sharing_violated`), and a library which changes
the order of attributes with the same name (`C53_order_violated`). The text of the file is not modelled. -/
theorem C53_field_partial {allowed : State F → GOp F → Prop} {s : State F} (h : Reach allowed s) {tx : FloatText F}
    {files : List Char → Option (List Char)} {ord : VisitOrder} (hord : ord.Perms) {o : ImportOrder} (ho : o.Fair)
    (hc : s.Covered) (hn : s.Named) (hcl : s.Clustered) (hw : s.EqualWeights) (hu : s.Unmistakable) (hp : s.Printable tx)
    {h0 : Heap F} (hb : ∀ f ∈ h0, FactorReach f) :
    ∃ root, XmlOut.convert tx ord s = .ok root ∧ ∀ root', root.Reordered root' →
      ∃ t ρ r, XmlIn.importXml tx files o true root' (State.initial h0) = .ok t () ∧ Reach anyOp t ∧
        State.SameSharing s t ρ r := by
  obtain ⟨ts, h1, h2⟩ := XmlIn.convert_ok hord (reach_inv h) (reach_tuned h) (State.reach_registered h) hn hp ho
  refine ⟨_, h1, fun root' hre => ?_⟩
  obtain ⟨X, order, mv, G, ht⟩ := XmlIn.trip_ok (files := files) hord (reach_inv h) (reach_tuned h)
    (State.reach_registered h) hcl hn hp ho h2 hre
  obtain ⟨t, h3, h4, h5⟩ := ht.field hb ho (reach_inv h) (reach_tuned h) (State.reach_registered h) hc hn hcl hw hu
  exact ⟨t, _, _, h3, h4, h5⟩

/-- C53: read into a model which cannot have tunable factors, the same xml gives the same factors, all of them
constant; the sharing of the weights does not matter then. -/
theorem C53_graph_partial {allowed : State F → GOp F → Prop} {s : State F} (h : Reach allowed s) {tx : FloatText F}
    {files : List Char → Option (List Char)} {ord : VisitOrder} (hord : ord.Perms) {o : ImportOrder} (ho : o.Fair)
    (hc : s.Covered) (hn : s.Named) (hcl : s.Clustered) (hp : s.Printable tx)
    {h0 : Heap F} (hb : ∀ f ∈ h0, FactorReach f) :
    ∃ root, XmlOut.convert tx ord s = .ok root ∧ ∀ root', root.Reordered root' →
      ∃ t ρ r, XmlIn.importXml tx files o false root' (State.initial h0) = .ok t () ∧ Reach anyOp t ∧
        State.SameModel s t ρ r ∧ t.consts.Perm t.factors ∧ t.tuners = [] := by
  obtain ⟨ts, h1, h2⟩ := XmlIn.convert_ok hord (reach_inv h) (reach_tuned h) (State.reach_registered h) hn hp ho
  refine ⟨_, h1, fun root' hre => ?_⟩
  obtain ⟨X, order, mv, G, ht⟩ := XmlIn.trip_ok (files := files) hord (reach_inv h) (reach_tuned h)
    (State.reach_registered h) hcl hn hp ho h2 hre
  obtain ⟨t, h3, h4, h5⟩ := ht.graph hb ho (reach_inv h) hc hn
  exact ⟨t, _, _, h3, h4, h5⟩

end

/-! ### Examples -/

mutual
theorem Tag.Reordered.refl : ∀ t : Tag, t.Reordered t
  | .mk _ n => .mk (fun _ => rfl) (Tag.ReorderedAll.refl n) (.refl _)

theorem Tag.ReorderedAll.refl : ∀ l : List (String × Tag), Tag.ReorderedAll l l
  | [] => .nil
  | (_, t) :: l => .cons (Tag.Reordered.refl t) (Tag.ReorderedAll.refl l)
end

namespace Ex

/-- The same tags, those nested in the root in the reverse order. -/
def upside (t : Tag) : Tag := .mk t.attributes t.nested.reverse

theorem upside_reordered (t : Tag) : t.Reordered (upside t) := by
  cases t with
  | mk a n => exact .mk (fun _ => rfl) (Tag.ReorderedAll.refl n) n.reverse_perm.symm

/-- The same tags, the attributes of the images of the factors in the reverse order. -/
def turned (t : Tag) : Tag :=
  .mk t.attributes (t.nested.map (fun e => (e.1, .mk e.2.attributes (e.2.nested.map (fun e' =>
    (e'.1, .mk e'.2.attributes.reverse e'.2.nested))))))

/-- Writing a model and reading it into an empty one. The library changes the tags in between. -/
def ship (lib : Tag → Tag) (inserts : Bool) (s : State (Ext ℚ)) : Out (State (Ext ℚ)) Unit :=
  match XmlOut.convert Text.fixed forwards s with
  | .ok root => XmlIn.importXml Text.fixed (fun _ => none) reading inserts (lib root) (State.initial [])
  | .throw => .throw s
  | .ub => .ub

/-- The model which is read. -/
def shipped (lib : Tag → Tag) (inserts : Bool) (s : State (Ext ℚ)) : State (Ext ℚ) :=
  match ship lib inserts s with
  | .ok t _ => t
  | _ => State.initial []

theorem ship_ok {lib : Tag → Tag} {inserts : Bool} {s : State (Ext ℚ)}
    (h : (match ship lib inserts s with | .ok _ _ => true | _ => false) = true) :
    ∃ root, XmlOut.convert Text.fixed forwards s = .ok root ∧
      XmlIn.importXml Text.fixed (fun _ => none) reading inserts (lib root) (State.initial []) =
        .ok (shipped lib inserts s) () := by
  unfold shipped
  cases ht : ship lib inserts s with
  | throw t => rw [ht] at h; cases h
  | ub => rw [ht] at h; cases h
  | ok t u =>
    unfold ship at ht
    cases hc : XmlOut.convert Text.fixed forwards s with
    | throw => rw [hc] at ht; cases ht
    | ub => rw [hc] at ht; cases ht
    | ok j => rw [hc] at ht; exact ⟨j, rfl, ht⟩

theorem ship_throw {lib : Tag → Tag} {inserts : Bool} {s : State (Ext ℚ)}
    (hs : (match XmlOut.convert Text.fixed forwards s with | .ok _ => true | _ => false) = true)
    (h : (match ship lib inserts s with | .throw _ => true | _ => false) = true) :
    ∃ root t, XmlOut.convert Text.fixed forwards s = .ok root ∧
      XmlIn.importXml Text.fixed (fun _ => none) reading inserts (lib root) (State.initial []) = .throw t := by
  cases ht : ship lib inserts s with
  | ok t _ => rw [ht] at h; cases h
  | ub => rw [ht] at h; cases h
  | throw t =>
    unfold ship at ht
    cases hc : XmlOut.convert Text.fixed forwards s with
    | throw => rw [hc] at hs; cases hs
    | ub => rw [hc] at ht; cases ht
    | ok j => rw [hc] at ht; exact ⟨j, t, rfl, ht⟩

theorem printable_of {s : State (Ext ℚ)} (h : portable s = true) : s.Printable Text.fixed := by
  have hp := portable_of h
  exact ⟨fun v hv => (hp.names v hv).1, hp.sizes,
    fun p hpf f hf q x hq hx => ⟨(hp.images p hpf f hf q x hq hx).1.2, (hp.images p hpf f hf q x hq hx).2⟩,
    fun p hpf f hf w hw => (hp.weights p hpf f hf w hw).2⟩

theorem field_unmistakable : field.Unmistakable := by
  have hc : field.tunableClusters = [[0, 2], [3]] := by decide +kernel
  have h0 : varsOf field 0 = [X] := by decide +kernel
  have h3 : varsOf field 3 = [Y, Z] := by decide +kernel
  intro c hc' d hd hne p q l he p' hp' f f' hf hf' hperm
  rw [hc] at hc' hd
  have e1 : c = [0, 2] := by
    simp only [List.mem_cons, List.not_mem_nil, or_false] at hc'
    rcases hc' with rfl | rfl
    · rfl
    · cases he
  subst e1
  cases he
  have e2 : d = [3] := by
    simp only [List.mem_cons, List.not_mem_nil, or_false] at hd
    rcases hd with rfl | rfl
    · exact absurd rfl hne
    · rfl
  subst e2
  have e3 : p' = 3 := by simpa using hp'
  subst e3
  unfold varsOf at h0 h3
  rw [hf] at h0
  rw [hf'] at h3
  simp only at h0 h3
  rw [h0, h3] at hperm
  exact absurd hperm.length_eq (by simp)

end Ex

/-- The field with two clusters, a constant factor and an evidence. The tags are read in the reverse order. -/
example : Reach FromInside Ex.field ∧ Ex.forwards.Perms ∧ Ex.reading.Fair ∧ Ex.field.Covered ∧ Ex.field.Named ∧
    Ex.field.Clustered ∧ Ex.field.EqualWeights ∧ Ex.field.Unmistakable ∧ Ex.field.Printable Text.fixed ∧
    (∀ root : Tag, root.Reordered (Ex.upside root)) ∧ Ex.field.tunableClusters = [[0, 2], [3]] ∧
    (match Ex.ship Ex.upside true Ex.field with
      | .ok t _ => some (t.vars.map (fun v => (v.name, v.size)), t.consts, t.tunableClusters, t.evidences.map (fun e => (e.1.name, e.2)))
      | _ => none) = some ([("Y", 2), ("Z", 2), ("X", 2)], [3], [[0], [2, 1]], [("Z", 1)]) :=
  ⟨Ex.field_inside, Ex.forwards_perms, Ex.reading_fair, Ex.covered_of (by decide +kernel), Ex.named_of (by decide +kernel),
    Ex.clustered_of (by decide +kernel), Ex.equalWeights_of Ex.field_inside, Ex.field_unmistakable,
    Ex.printable_of (by decide +kernel), Ex.upside_reordered, by decide +kernel, by decide +kernel⟩

/-- The path X - Y - Z with an evidence, with its distribution. The tags are read in the reverse order. -/
example : ∃ root t ρ r φ', XmlOut.convert Text.fixed Ex.forwards (Ex.after (Ex.path ++ [.observe Ex.Z 1])) = .ok root ∧
    XmlIn.importXml Text.fixed (fun _ => none) Ex.reading false (Ex.upside root) (State.initial Ex.heapT) = .ok t () ∧
    State.SameModel (Ex.after (Ex.path ++ [.observe Ex.Z 1])) t ρ r ∧ t.Images φ' ∧
    ∀ a, t.Agrees a → t.weight φ' a =
      (Ex.after (Ex.path ++ [.observe Ex.Z 1])).weight (Ex.phiIn Ex.heapXYZ) (fun v => a (ρ v)) := by
  have hr : Reach anyOp (Ex.after (Ex.path ++ [.observe Ex.Z 1])) := Ex.runActs_any _ (.init Ex.heapXYZ_reach)
  have hh : (Ex.after (Ex.path ++ [.observe Ex.Z 1])).heap = Ex.heapXYZ := rfl
  have hi : (Ex.after (Ex.path ++ [.observe Ex.Z 1])).Images (Ex.phiIn Ex.heapXYZ) := by
    rw [← hh]
    exact Ex.phiIn_images (by decide +kernel)
  obtain ⟨root, h1, h2⟩ := C53_graph_partial hr (tx := Text.fixed) (files := fun _ => none) Ex.forwards_perms Ex.reading_fair
    (Ex.covered_of (by decide +kernel)) (Ex.named_of (by decide +kernel)) (Ex.clustered_of (by decide +kernel))
    (Ex.printable_of (by decide +kernel)) Ex.heapT_reach
  obtain ⟨t, ρ, r, h3, _, h4, _⟩ := h2 (Ex.upside root) (Ex.upside_reordered root)
  obtain ⟨⟨φ', h5⟩, h6⟩ := C48_weight hr h4 hi
  exact ⟨root, t, ρ, r, φ', h1, h3, h4, h5, fun a ha => (h6 φ' h5 a).2.2 ha.1⟩

/-! ### Violations -/

/-- C53 is violated by images which have more than six decimals: the image 1/10^7 is read as 0. -/
theorem C53_precision_violated : ∃ (s t : State (Ext ℚ)) (root : Tag), Reach anyOp s ∧
    s.Covered ∧ s.Named ∧ XmlOut.convert Text.fixed Ex.forwards s = .ok root ∧
    XmlIn.importXml Text.fixed (fun _ => none) Ex.reading true root (State.initial []) = .ok t () ∧
    s.factors = [0] ∧ Ex.imageAt s 0 [0] = some (.val (1 / 10 ^ 7)) ∧
    t.factors = [0] ∧ Ex.imageAt t 0 [0] = some (.val 0) := by
  obtain ⟨root, h1, h2⟩ := Ex.ship_ok (lib := id) (inserts := true) (s := Ex.small) (by decide +kernel)
  exact ⟨Ex.small, _, root, Ex.small_reach, Ex.covered_of (by decide +kernel), Ex.named_of (by decide +kernel), h1, h2,
    by decide +kernel, by decide +kernel, by decide +kernel, by decide +kernel⟩

/-- C53 is violated by an isolated variable: it is not in the model which is read, and if it is observed the import
throws. -/
theorem C53_isolated_violated :
    (∃ (s t : State (Ext ℚ)) (root : Tag), Reach anyOp s ∧ s.Named ∧ s.Printable Text.fixed ∧
      XmlOut.convert Text.fixed Ex.forwards s = .ok root ∧
      XmlIn.importXml Text.fixed (fun _ => none) Ex.reading true root (State.initial []) = .ok t () ∧
      s.vars.map Var.name = ["A", "B", "C", "D"] ∧ "D" ∉ t.vars.map Var.name) ∧
    (∃ (s t : State (Ext ℚ)) (root : Tag), Reach anyOp s ∧ s.Named ∧ s.Printable Text.fixed ∧ s.evidences = [(Ex.D, 1)] ∧
      XmlOut.convert Text.fixed Ex.forwards s = .ok root ∧
      XmlIn.importXml Text.fixed (fun _ => none) Ex.reading true root (State.initial []) = .throw t) := by
  constructor
  · obtain ⟨root, h1, h2⟩ := Ex.ship_ok (lib := id) (inserts := true) (s := Ex.isolated) (by decide +kernel)
    exact ⟨Ex.isolated, _, root, Ex.isolated_reach, Ex.named_of (by decide +kernel), Ex.printable_of (by decide +kernel),
      h1, h2, by decide +kernel, by decide +kernel⟩
  · obtain ⟨root, t, h1, h2⟩ := Ex.ship_throw (lib := id) (inserts := true)
      (s := Ex.step (.setEvidence Ex.rev Ex.D 1) Ex.isolated) (by decide +kernel) (by decide +kernel)
    exact ⟨Ex.step (.setEvidence Ex.rev Ex.D 1) Ex.isolated, t, root,
      Ex.step_reach Ex.isolated_reach ⟨Ex.rev_perm, trivial⟩ trivial rfl, Ex.named_of (by decide +kernel),
      Ex.printable_of (by decide +kernel), by decide +kernel, h1, h2⟩

/-- C53 is violated when two variables have the same name and different sizes: a model which was exported without
errors cannot be read. -/
theorem C53_names_violated : ∃ (s t : State (Ext ℚ)) (root : Tag), Reach anyOp s ∧ s.Covered ∧ s.Printable Text.fixed ∧
    XmlOut.convert Text.fixed Ex.forwards s = .ok root ∧
    XmlIn.importXml Text.fixed (fun _ => none) Ex.reading true root (State.initial []) = .throw t := by
  obtain ⟨root, t, h1, h2⟩ := Ex.ship_throw (lib := id) (inserts := true) (s := Ex.names 2) (by decide +kernel)
    (by decide +kernel)
  exact ⟨_, t, root, Ex.names_reach 2, Ex.covered_of (by decide +kernel), Ex.printable_of (by decide +kernel), h1, h2⟩

namespace Ex

/-- The first cluster has the factors 0 and 2, a later one a factor which has the variables of the factor 0. -/
def later : State (Ext ℚ) := afterT [.tune 0 none, .tune 2 (some [X]), .tune 6 none, .tune 1 none]

theorem later_inside : Reach FromInside later :=
  runT_reach (c := fun s a => a.typed s) (fun _ a h => ⟨TAct.valid h, (fun p w he => by cases a <;> cases he)⟩) _
    (.init heapT_reach) (by decide +kernel)

/-- A factor which is not symmetric. -/
def lopsided : State (Ext ℚ) := afterT [.add 9]

end Ex

/-- C53 is violated when a tunable factor of another cluster has the variables of the first factor of a cluster. When
the tags are read in the order in which they were added the clusters are the same. In the reverse order the factor on
Y, which shared the weight 1, shares the weight 2. -/
theorem C53_sharing_violated : ∃ (s t t' : State (Ext ℚ)) (root : Tag), Reach FromInside s ∧ s.Covered ∧ s.Named ∧
    s.Clustered ∧ s.EqualWeights ∧ s.Printable Text.fixed ∧ XmlOut.convert Text.fixed Ex.forwards s = .ok root ∧
    s.tunableClusters = [[0, 2], [6], [1]] ∧ Ex.weightAt s 2 = some (.val 1) ∧
    XmlIn.importXml Text.fixed (fun _ => none) Ex.reading true root (State.initial []) = .ok t () ∧
    t.tunableClusters = [[0, 1], [2], [3]] ∧ (Ex.varsOf t 1).map Var.name = ["Y"] ∧ Ex.weightAt t 1 = some (.val 1) ∧
    root.Reordered (Ex.upside root) ∧
    XmlIn.importXml Text.fixed (fun _ => none) Ex.reading true (Ex.upside root) (State.initial []) = .ok t' () ∧
    t'.tunableClusters = [[0], [1, 2], [3]] ∧ (Ex.varsOf t' 2).map Var.name = ["Y"] ∧
    Ex.weightAt t' 2 = some (.val 2) := by
  obtain ⟨root, h1, h2⟩ := Ex.ship_ok (lib := id) (inserts := true) (s := Ex.later) (by decide +kernel)
  obtain ⟨root', h1', h2'⟩ := Ex.ship_ok (lib := Ex.upside) (inserts := true) (s := Ex.later) (by decide +kernel)
  rw [h1] at h1'
  cases h1'
  exact ⟨Ex.later, _, _, root, Ex.later_inside, Ex.covered_of (by decide +kernel), Ex.named_of (by decide +kernel),
    Ex.clustered_of (by decide +kernel), Ex.equalWeights_of Ex.later_inside, Ex.printable_of (by decide +kernel), h1,
    by decide +kernel, by decide +kernel, h2, by decide +kernel, by decide +kernel, by decide +kernel,
    Ex.upside_reordered root, h2',
    by decide +kernel, by decide +kernel, by decide +kernel⟩

/-- C53 is violated when the container of the attributes gives back in another order those which have the same name:
the values of a combination are only told apart by their order. The images of a factor on X and Y are transposed. -/
theorem C53_order_violated : ∃ (s t : State (Ext ℚ)) (root : Tag), Reach anyOp s ∧ s.Covered ∧ s.Named ∧
    s.Printable Text.fixed ∧ XmlOut.convert Text.fixed Ex.forwards s = .ok root ∧
    XmlIn.importXml Text.fixed (fun _ => none) Ex.reading true (Ex.turned root) (State.initial []) = .ok t () ∧
    s.factors = [9] ∧ (Ex.varsOf s 9).map Var.name = ["X", "Y"] ∧ Ex.imageAt s 9 [0, 1] = some (.val 2) ∧
    t.factors = [0] ∧ (Ex.varsOf t 0).map Var.name = ["X", "Y"] ∧ Ex.imageAt t 0 [0, 1] = some (.val 3) := by
  obtain ⟨root, h1, h2⟩ := Ex.ship_ok (lib := Ex.turned) (inserts := true) (s := Ex.lopsided) (by decide +kernel)
  exact ⟨Ex.lopsided, _, root, Ex.afterT_any _ (by decide +kernel), Ex.covered_of (by decide +kernel), Ex.named_of (by decide +kernel),
    Ex.printable_of (by decide +kernel), h1, h2, by decide +kernel, by decide +kernel, by decide +kernel, by decide +kernel,
    by decide +kernel, by decide +kernel⟩

end EFG
