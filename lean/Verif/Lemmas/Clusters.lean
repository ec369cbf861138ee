import Mathlib.Data.List.Perm.Basic
import Mathlib.Data.List.Flatten
import Mathlib.Data.List.Nodup
import Mathlib.Logic.Relation
import Verif.Model.Graph
/- `compute_clusters` returns the connected components. -/

namespace EFG
namespace Clusters

theorem mem_emplace {c : List Var} {v w : Var} : w ∈ emplace c v ↔ w ∈ c ∨ w = v := by
  unfold emplace
  split <;> rename_i h
  · simp only [List.contains_iff_mem] at h
    constructor
    · exact Or.inl
    · rintro (h' | rfl) <;> assumption
  · simp

theorem nodup_emplace {c : List Var} {v : Var} (h : c.Nodup) : (emplace c v).Nodup := by
  unfold emplace
  split <;> rename_i hc
  · exact h
  · exact List.Nodup.append h (by simp) (by simpa using hc)

theorem mem_foldl_emplace {l c : List Var} {w : Var} :
    w ∈ l.foldl emplace c ↔ w ∈ c ∨ w ∈ l := by
  induction l generalizing c with
  | nil => simp
  | cons v l ih => simp only [List.foldl_cons, ih, mem_emplace, List.mem_cons]; tauto

theorem nodup_foldl_emplace {l c : List Var} (h : c.Nodup) : (l.foldl emplace c).Nodup := by
  induction l generalizing c with
  | nil => exact h
  | cons v l ih => exact ih (nodup_emplace h)

theorem mem_foldl_merge {β : Type} {es : List (List Var × β)} {c : List Var} {w : Var} :
    w ∈ es.foldl (fun acc e => e.1.foldl emplace acc) c ↔ w ∈ c ∨ ∃ e ∈ es, w ∈ e.1 := by
  induction es generalizing c with
  | nil => simp
  | cons e es ih => simp only [List.foldl_cons, ih, mem_foldl_emplace, List.mem_cons]; aesop

theorem nodup_foldl_merge {β : Type} {es : List (List Var × β)} {c : List Var} (h : c.Nodup) :
    (es.foldl (fun acc e => e.1.foldl emplace acc) c).Nodup := by
  induction es generalizing c with
  | nil => exact h
  | cons e es ih => exact ih (nodup_foldl_emplace h)

/-- Whether a cluster contains one of the listed variables. -/
def meets (nbs : List Var) (c : List Var) : Bool := nbs.any (fun w => c.contains w)

theorem meets_iff {nbs c : List Var} : meets nbs c = true ↔ ∃ w ∈ nbs, w ∈ c := by
  simp [meets]

theorem disjoint_of_flatten {res : List (List Var)} (h : res.flatten.Nodup) {i j : Nat}
    {hi : i < res.length} {hj : j < res.length} {w : Var} (h1 : w ∈ res[i]) (h2 : w ∈ res[j]) : i = j := by
  rw [List.nodup_flatten] at h
  by_contra hne
  rcases Nat.lt_or_gt_of_ne hne with hlt | hlt
  · exact (List.pairwise_iff_getElem.mp h.2 i j hi hj hlt) h1 h2
  · exact (List.pairwise_iff_getElem.mp h.2 j i hj hi hlt) h2 h1

theorem touched_eq {res : List (List Var)} (h : res.flatten.Nodup) (nbs : List Var) {i : Nat}
    (hi : i < res.length) : touched res nbs i = meets nbs res[i] := by
  have key : ∀ w, (hit res w = some i) ↔ w ∈ res[i] := by
    intro w
    unfold hit
    rw [List.findIdx?_eq_some_iff_getElem]
    constructor
    · rintro ⟨_, h1, _⟩
      simpa using h1
    · intro hw
      refine ⟨hi, by simpa using hw, ?_⟩
      intro j hj
      simp only [List.contains_iff_mem]
      intro hw'
      have := disjoint_of_flatten h hw hw'
      omega
  unfold touched meets
  congr 1
  funext w
  have := key w
  by_cases hw : w ∈ res[i]
  · simp [hw, this.mpr hw]
  · have h2 : ¬ hit res w = some i := fun h' => hw (this.mp h')
    simp [hw, h2]

theorem marked_eq {res : List (List Var)} (h : res.flatten.Nodup) (nbs : List Var) :
    res.zipIdx.map (fun e => (e.1, touched res nbs e.2)) = res.map (fun c => (c, meets nbs c)) := by
  apply List.ext_getElem
  · simp
  · intro i h1 h2
    simp only [List.length_map, List.length_zipIdx] at h1
    simp only [List.getElem_map, List.getElem_zipIdx, Nat.zero_add, touched_eq h nbs h1]

/-- What one round does, up to the order of the clusters. -/
theorem step_perm {nb : Var → List Var} {res : List (List Var)} (h : res.flatten.Nodup) (x : Var)
    (hx : x ∉ res.flatten) :
    ∃ N : List Var, (step nb res x).Perm (res.filter (fun c => !meets (nb x) c) ++ [N]) ∧ N.Nodup ∧
      ∀ v, v ∈ N ↔ v = x ∨ ∃ c ∈ res, meets (nb x) c = true ∧ v ∈ c := by
  unfold step
  simp only [marked_eq h]
  rw [List.filter_map]
  have hcomp : ((fun e : List Var × Bool => e.2) ∘ fun c => (c, meets (nb x) c)) = meets (nb x) := rfl
  have hcomp' : ((fun e : List Var × Bool => !e.2) ∘ fun c => (c, meets (nb x) c)) =
      fun c => !meets (nb x) c := rfl
  rw [hcomp]
  have hall : (List.filter (fun e : List Var × Bool => !e.2) (res.map fun c => (c, meets (nb x) c))).map
      Prod.fst = res.filter (fun c => !meets (nb x) c) := by
    rw [List.filter_map, hcomp', List.map_map]
    exact List.map_id _
  have hmemf : ∀ c, c ∈ res.filter (meets (nb x)) ↔ c ∈ res ∧ meets (nb x) c = true := by simp
  have hpart := List.filter_append_perm (meets (nb x)) res
  generalize hf : res.filter (meets (nb x)) = fs at *
  cases fs with
  | nil =>
    refine ⟨[x], ?_, by simp, ?_⟩
    · simp only [List.map_nil]
      refine List.Perm.append_right _ ?_
      simpa using hpart.symm
    · intro v
      constructor
      · intro hv; left; simpa using hv
      · rintro (rfl | ⟨c, hc, hm, _⟩)
        · simp
        · exact absurd ((hmemf c).mpr ⟨hc, hm⟩) (by simp)
  | cons c0 fs =>
    cases fs with
    | nil =>
      have hc0 := (hmemf c0).mp (by simp)
      refine ⟨emplace c0 x, ?_, ?_, ?_⟩
      · simp only [List.map_cons, List.map_nil, List.map_map]
        have h1 := (hpart.map (fun c => if meets (nb x) c then emplace c x else c)).symm
        refine (List.Perm.trans ?_ h1).trans ?_
        · exact List.Perm.of_eq rfl
        · simp only [List.map_append, List.map_cons, List.map_nil, hc0.2, if_true]
          refine List.perm_append_comm.trans (List.Perm.of_eq ?_)
          congr 1
          conv_rhs => rw [← List.map_id (res.filter fun c => !meets (nb x) c)]
          apply List.map_congr_left
          intro c hc
          simp only [List.mem_filter, Bool.not_eq_true'] at hc
          simp [hc.2]
      · apply nodup_emplace
        rw [List.nodup_flatten] at h
        exact h.1 c0 hc0.1
      · intro v
        rw [mem_emplace]
        constructor
        · rintro (hv | hv)
          · exact Or.inr ⟨c0, hc0.1, hc0.2, hv⟩
          · exact Or.inl hv
        · rintro (hv | ⟨c, hc, hm, hv⟩)
          · exact Or.inr hv
          · have := (hmemf c).mpr ⟨hc, hm⟩
            simp only [List.mem_singleton] at this
            subst this
            exact Or.inl hv
    | cons c1 fs =>
      refine ⟨((c0 :: c1 :: fs).map (fun c => (c, meets (nb x) c))).foldl
        (fun acc e => e.1.foldl emplace acc) [x], ?_, ?_, ?_⟩
      rotate_left
      · exact nodup_foldl_merge (es := (c0 :: c1 :: fs).map (fun c => (c, meets (nb x) c))) (c := [x])
          (by simp)
      · intro v
        rw [mem_foldl_merge]
        simp only [List.mem_singleton, List.mem_map]
        constructor
        · rintro (hv | ⟨e, ⟨c, hc, rfl⟩, hv⟩)
          · exact Or.inl hv
          · exact Or.inr ⟨c, ((hmemf c).mp hc).1, ((hmemf c).mp hc).2, hv⟩
        · rintro (hv | ⟨c, hc, hm, hv⟩)
          · exact Or.inl hv
          · exact Or.inr ⟨_, ⟨c, (hmemf c).mpr ⟨hc, hm⟩, rfl⟩, hv⟩
      · simp only [List.map_cons]
        rw [hall]

/-- The clusters of the variables `done` are the connected components of the graph they span. -/
structure Parts (nb : Var → List Var) (done : List Var) (res : List (List Var)) : Prop where
  nodup : res.flatten.Nodup
  mem : ∀ v, v ∈ res.flatten ↔ v ∈ done
  ne : ∀ c ∈ res, c ≠ []
  closed : ∀ c ∈ res, ∀ u ∈ c, ∀ v ∈ done, v ∈ nb u → v ∈ c
  conn : ∀ c ∈ res, ∀ u ∈ c, ∀ v ∈ c,
    Relation.ReflTransGen (fun a b => a ∈ done ∧ b ∈ done ∧ b ∈ nb a) u v

theorem Parts.perm {nb : Var → List Var} {done : List Var} {res res' : List (List Var)}
    (h : Parts nb done res) (hp : res'.Perm res) : Parts nb done res' where
  nodup := (hp.flatten.nodup_iff).mpr h.nodup
  mem v := by rw [hp.flatten.mem_iff]; exact h.mem v
  ne c hc := h.ne c (hp.mem_iff.mp hc)
  closed c hc := h.closed c (hp.mem_iff.mp hc)
  conn c hc := h.conn c (hp.mem_iff.mp hc)

theorem Parts.congr {nb : Var → List Var} {done done' : List Var} {res : List (List Var)}
    (h : Parts nb done res) (hd : ∀ v, v ∈ done ↔ v ∈ done') : Parts nb done' res where
  nodup := h.nodup
  mem v := (h.mem v).trans (hd v)
  ne := h.ne
  closed c hc u hu v hv := h.closed c hc u hu v ((hd v).mpr hv)
  conn c hc u hu v hv := Relation.ReflTransGen.mono
    (fun a b ⟨h1, h2, h3⟩ => ⟨(hd a).mp h1, (hd b).mp h2, h3⟩) _ _ (h.conn c hc u hu v hv)

theorem Parts.step {nb : Var → List Var} {done : List Var} {res : List (List Var)} {x : Var}
    (h : Parts nb done res) (hx : x ∉ done)
    (hsym : ∀ u ∈ x :: done, ∀ v ∈ x :: done, v ∈ nb u → u ∈ nb v) :
    Parts nb (done ++ [x]) (step nb res x) := by
  obtain ⟨N, hp, hN, hmem⟩ := step_perm (nb := nb) h.nodup x (fun h' => hx ((h.mem x).mp h'))
  refine Parts.perm ?_ hp
  have hsub : ∀ c ∈ res, ∀ v ∈ c, v ∈ done := fun c hc v hv =>
    (h.mem v).mp (List.mem_flatten.mpr ⟨c, hc, hv⟩)
  have hmono : ∀ u v, Relation.ReflTransGen (fun a b => a ∈ done ∧ b ∈ done ∧ b ∈ nb a) u v →
      Relation.ReflTransGen (fun a b => a ∈ done ++ [x] ∧ b ∈ done ++ [x] ∧ b ∈ nb a) u v :=
    fun u v hr => Relation.ReflTransGen.mono (fun a b ⟨h1, h2, h3⟩ =>
      ⟨List.mem_append_left _ h1, List.mem_append_left _ h2, h3⟩) _ _ hr
  -- every member of the new cluster is linked with `x`, both ways
  have hlink : ∀ v ∈ N,
      Relation.ReflTransGen (fun a b => a ∈ done ++ [x] ∧ b ∈ done ++ [x] ∧ b ∈ nb a) x v ∧
      Relation.ReflTransGen (fun a b => a ∈ done ++ [x] ∧ b ∈ done ++ [x] ∧ b ∈ nb a) v x := by
    intro v hv
    rcases (hmem v).mp hv with rfl | ⟨c, hc, hm, hvc⟩
    · exact ⟨.refl, .refl⟩
    · obtain ⟨w, hw, hwc⟩ := meets_iff.mp hm
      have hwd := hsub c hc w hwc
      have hxw : x ∈ nb w := hsym x (by simp) w (by simp [hwd]) hw
      refine ⟨.head ⟨by simp, by simp [hwd], hw⟩ (hmono _ _ (h.conn c hc w hwc v hvc)), ?_⟩
      exact (hmono _ _ (h.conn c hc v hvc w hwc)).tail ⟨by simp [hwd], by simp, hxw⟩
  have hnd := h.nodup
  rw [List.nodup_flatten] at hnd
  refine ⟨?_, ?_, ?_, ?_, ?_⟩
  · rw [List.flatten_append, List.flatten_singleton]
    refine List.Nodup.append ?_ hN ?_
    · exact h.nodup.sublist (List.filter_sublist.flatten)
    · intro v hv hvN
      obtain ⟨c, hc, hvc⟩ := List.mem_flatten.mp hv
      rw [List.mem_filter] at hc
      rcases (hmem v).mp hvN with rfl | ⟨c', hc', hm', hvc'⟩
      · exact hx (hsub c hc.1 _ hvc)
      · obtain ⟨i, hi, rfl⟩ := List.getElem_of_mem hc.1
        obtain ⟨j, hj, rfl⟩ := List.getElem_of_mem hc'
        have := disjoint_of_flatten h.nodup hvc hvc'
        subst this
        simp [hm'] at hc
  · intro v
    rw [List.flatten_append, List.flatten_singleton, List.mem_append, hmem, List.mem_append,
      List.mem_singleton]
    constructor
    · rintro (hv | rfl | ⟨c, hc, _, hvc⟩)
      · obtain ⟨c, hc, hvc⟩ := List.mem_flatten.mp hv
        exact Or.inl (hsub c (List.mem_filter.mp hc).1 v hvc)
      · exact Or.inr rfl
      · exact Or.inl (hsub c hc v hvc)
    · rintro (hv | rfl)
      · obtain ⟨c, hc, hvc⟩ := List.mem_flatten.mp ((h.mem v).mpr hv)
        cases hm : meets (nb x) c with
        | true => exact Or.inr (Or.inr ⟨c, hc, hm, hvc⟩)
        | false => exact Or.inl (List.mem_flatten.mpr ⟨c, List.mem_filter.mpr ⟨hc, by simp [hm]⟩, hvc⟩)
      · exact Or.inr (Or.inl rfl)
  · intro c hc
    rcases List.mem_append.mp hc with hc | hc
    · exact h.ne c (List.mem_filter.mp hc).1
    · simp only [List.mem_singleton] at hc
      subst hc
      intro h0
      have := (hmem x).mpr (Or.inl rfl)
      simp [h0] at this
  · intro c hc u hu v hv hvu
    rcases List.mem_append.mp hc with hc | hc
    · rw [List.mem_filter] at hc
      have hud := hsub c hc.1 u hu
      rcases List.mem_append.mp hv with hv | hv
      · exact h.closed c hc.1 u hu v hv hvu
      · simp only [List.mem_singleton] at hv
        subst hv
        have hux : u ∈ nb v := hsym u (by simp [hud]) v (by simp) hvu
        have : meets (nb v) c = true := meets_iff.mpr ⟨u, hux, hu⟩
        simp [this] at hc
    · simp only [List.mem_singleton] at hc
      subst hc
      rw [hmem]
      rcases List.mem_append.mp hv with hvd | hv
      · right
        rcases (hmem u).mp hu with rfl | ⟨c, hc, hm, huc⟩
        · obtain ⟨c, hc, hvc⟩ := List.mem_flatten.mp ((h.mem v).mpr hvd)
          exact ⟨c, hc, meets_iff.mpr ⟨v, hvu, hvc⟩, hvc⟩
        · exact ⟨c, hc, hm, h.closed c hc u huc v hvd hvu⟩
      · left; simpa using hv
  · intro c hc u hu v hv
    rcases List.mem_append.mp hc with hc | hc
    · exact hmono _ _ (h.conn c (List.mem_filter.mp hc).1 u hu v hv)
    · simp only [List.mem_singleton] at hc
      subst hc
      exact (hlink u hu).2.trans (hlink v hv).1

theorem compute_parts {nb : Var → List Var} {nodes : List Var} (hn : nodes.Nodup)
    (hsym : ∀ u ∈ nodes, ∀ v ∈ nodes, v ∈ nb u → u ∈ nb v) :
    Parts nb nodes (compute nb nodes) := by
  suffices H : ∀ (l done : List Var) (res : List (List Var)), Parts nb done res →
      (done ++ l).Nodup → (∀ u ∈ done ++ l, ∀ v ∈ done ++ l, v ∈ nb u → u ∈ nb v) →
      Parts nb (done ++ l) (l.foldl (Clusters.step nb) res) by
    have := H nodes [] [] ⟨by simp, by simp, by simp, by simp, by simp⟩ (by simpa using hn)
      (by simpa using hsym)
    simpa [compute] using this
  intro l
  induction l with
  | nil => intro done res h _ _; simpa using h
  | cons x l ih =>
    intro done res h hnd hs
    have hx : x ∉ done := by
      intro h'
      have := List.disjoint_of_nodup_append hnd h'
      simp at this
    have h1 := h.step hx (fun u hu v hv => hs u (by simp at hu ⊢; tauto) v (by simp at hv ⊢; tauto))
    have := ih (done ++ [x]) _ h1 (by simpa using hnd) (by simpa using hs)
    simpa using this


theorem Parts.congr_nb {nb nb' : Var → List Var} {done : List Var} {res : List (List Var)}
    (h : Parts nb done res) (hnb : ∀ u ∈ done, ∀ v ∈ done, v ∈ nb' u ↔ v ∈ nb u) :
    Parts nb' done res where
  nodup := h.nodup
  mem := h.mem
  ne := h.ne
  closed c hc u hu v hv hvu :=
    h.closed c hc u hu v hv ((hnb u ((h.mem u).mp (List.mem_flatten.mpr ⟨c, hc, hu⟩)) v hv).mp hvu)
  conn c hc u hu v hv := Relation.ReflTransGen.mono
    (fun a b ⟨h1, h2, h3⟩ => ⟨h1, h2, (hnb a h1 b h2).mpr h3⟩) _ _ (h.conn c hc u hu v hv)

/-- A new isolated variable. -/
theorem Parts.fresh {nb : Var → List Var} {done : List Var} {res : List (List Var)} {x : Var}
    (h : Parts nb done res) (hx : x ∉ done) (h1 : ∀ u ∈ done, x ∉ nb u) (h2 : ∀ u ∈ done, u ∉ nb x) :
    Parts nb (done ++ [x]) (res ++ [[x]]) := by
  have hsub : ∀ c ∈ res, ∀ v ∈ c, v ∈ done := fun c hc v hv =>
    (h.mem v).mp (List.mem_flatten.mpr ⟨c, hc, hv⟩)
  refine ⟨?_, ?_, ?_, ?_, ?_⟩
  · rw [List.flatten_append, List.flatten_singleton]
    refine List.Nodup.append h.nodup (by simp) ?_
    intro v hv hvx
    simp only [List.mem_singleton] at hvx
    subst hvx
    exact hx ((h.mem _).mp hv)
  · intro v
    rw [List.flatten_append, List.flatten_singleton, List.mem_append, List.mem_append, h.mem]
  · intro c hc
    rcases List.mem_append.mp hc with hc | hc
    · exact h.ne c hc
    · simp only [List.mem_singleton] at hc; subst hc; simp
  · intro c hc u hu v hv hvu
    rcases List.mem_append.mp hc with hc' | hc
    · rcases List.mem_append.mp hv with hv | hv
      · exact h.closed c hc' u hu v hv hvu
      · simp only [List.mem_singleton] at hv
        subst hv
        exact absurd hvu (h1 u (hsub c hc' u hu))
    · simp only [List.mem_singleton] at hc; subst hc
      simp only [List.mem_singleton] at hu; subst hu
      rcases List.mem_append.mp hv with hv | hv
      · exact absurd hvu (h2 v hv)
      · exact hv
  · intro c hc u hu v hv
    rcases List.mem_append.mp hc with hc | hc
    · exact Relation.ReflTransGen.mono (fun a b ⟨h1, h2, h3⟩ =>
        ⟨List.mem_append_left _ h1, List.mem_append_left _ h2, h3⟩) _ _ (h.conn c hc u hu v hv)
    · simp only [List.mem_singleton] at hc; subst hc
      simp only [List.mem_singleton] at hu hv; subst hu; subst hv
      exact .refl

/-- A link inside one cluster. -/
theorem Parts.link_same {nb nb' : Var → List Var} {done : List Var} {res : List (List Var)} {a b : Var}
    (h : Parts nb done res)
    (hab : ∀ c ∈ res, a ∈ c ↔ b ∈ c)
    (hnb : ∀ u ∈ done, ∀ v ∈ done, v ∈ nb' u ↔ v ∈ nb u ∨ (u = a ∧ v = b) ∨ (u = b ∧ v = a)) :
    Parts nb' done res where
  nodup := h.nodup
  mem := h.mem
  ne := h.ne
  closed c hc u hu v hv hvu := by
    rcases (hnb u ((h.mem u).mp (List.mem_flatten.mpr ⟨c, hc, hu⟩)) v hv).mp hvu with
      h' | ⟨rfl, rfl⟩ | ⟨rfl, rfl⟩
    · exact h.closed c hc u hu v hv h'
    · exact (hab c hc).mp hu
    · exact (hab c hc).mpr hu
  conn c hc u hu v hv := Relation.ReflTransGen.mono
    (fun a b ⟨h1, h2, h3⟩ => ⟨h1, h2, (hnb a h1 b h2).mpr (Or.inl h3)⟩) _ _ (h.conn c hc u hu v hv)

/-- A link between two clusters, which are merged. -/
theorem Parts.link {nb nb' : Var → List Var} {done : List Var} {rest : List (List Var)}
    {ca cb N : List Var} {a b : Var}
    (h : Parts nb done (ca :: cb :: rest)) (ha : a ∈ ca) (hb : b ∈ cb) (hN : N.Nodup)
    (hmem : ∀ v, v ∈ N ↔ v ∈ ca ∨ v ∈ cb)
    (hnb : ∀ u ∈ done, ∀ v ∈ done, v ∈ nb' u ↔ v ∈ nb u ∨ (u = a ∧ v = b) ∨ (u = b ∧ v = a)) :
    Parts nb' done (N :: rest) := by
  have hsub : ∀ c ∈ ca :: cb :: rest, ∀ v ∈ c, v ∈ done := fun c hc v hv =>
    (h.mem v).mp (List.mem_flatten.mpr ⟨c, hc, hv⟩)
  have had : a ∈ done := hsub ca (by simp) a ha
  have hbd : b ∈ done := hsub cb (by simp) b hb
  have hmono : ∀ u v, Relation.ReflTransGen (fun a b => a ∈ done ∧ b ∈ done ∧ b ∈ nb a) u v →
      Relation.ReflTransGen (fun a b => a ∈ done ∧ b ∈ done ∧ b ∈ nb' a) u v :=
    fun u v hr => Relation.ReflTransGen.mono (fun a b ⟨h1, h2, h3⟩ =>
      ⟨h1, h2, (hnb a h1 b h2).mpr (Or.inl h3)⟩) _ _ hr
  have hnd := h.nodup
  simp only [List.flatten_cons] at hnd
  have hnd1 := List.nodup_append'.mp hnd
  have hnd2 := List.nodup_append'.mp hnd1.2.1
  have hab : Relation.ReflTransGen (fun a b => a ∈ done ∧ b ∈ done ∧ b ∈ nb' a) a b :=
    .single ⟨had, hbd, (hnb a had b hbd).mpr (Or.inr (Or.inl ⟨rfl, rfl⟩))⟩
  have hba : Relation.ReflTransGen (fun a b => a ∈ done ∧ b ∈ done ∧ b ∈ nb' a) b a :=
    .single ⟨hbd, had, (hnb b hbd a had).mpr (Or.inr (Or.inr ⟨rfl, rfl⟩))⟩
  have hdisjr : ∀ c ∈ rest, a ∉ c ∧ b ∉ c := by
    intro c hc
    constructor
    · intro h'
      exact hnd1.2.2 ha (List.mem_append_right _ (List.mem_flatten.mpr ⟨c, hc, h'⟩))
    · intro h'
      exact hnd2.2.2 hb (List.mem_flatten.mpr ⟨c, hc, h'⟩)
  refine ⟨?_, ?_, ?_, ?_, ?_⟩
  · rw [List.flatten_cons]
    refine List.Nodup.append hN hnd2.2.1 ?_
    intro v hv hvr
    rcases (hmem v).mp hv with hv | hv
    · exact hnd1.2.2 hv (List.mem_append_right _ hvr)
    · exact hnd2.2.2 hv hvr
  · intro v
    rw [← h.mem v]
    simp only [List.flatten_cons, List.mem_append, hmem]
    tauto
  · intro c hc
    rcases List.mem_cons.mp hc with rfl | hc
    · intro h0
      have := (hmem a).mpr (Or.inl ha)
      simp [h0] at this
    · exact h.ne c (by simp [hc])
  · intro c hc u hu v hv hvu
    rcases List.mem_cons.mp hc with rfl | hc
    · rw [hmem]
      have hud : u ∈ done := by
        rcases (hmem u).mp hu with h' | h'
        · exact hsub ca (by simp) u h'
        · exact hsub cb (by simp) u h'
      rcases (hnb u hud v hv).mp hvu with h' | ⟨rfl, rfl⟩ | ⟨rfl, rfl⟩
      · rcases (hmem u).mp hu with hu | hu
        · exact Or.inl (h.closed ca (by simp) u hu v hv h')
        · exact Or.inr (h.closed cb (by simp) u hu v hv h')
      · exact Or.inr hb
      · exact Or.inl ha
    · rcases (hnb u (hsub c (by simp [hc]) u hu) v hv).mp hvu with h' | ⟨rfl, rfl⟩ | ⟨rfl, rfl⟩
      · exact h.closed c (by simp [hc]) u hu v hv h'
      · exact absurd hu (hdisjr c hc).1
      · exact absurd hu (hdisjr c hc).2
  · intro c hc u hu v hv
    rcases List.mem_cons.mp hc with rfl | hc
    · have hA := fun u hu v hv => hmono _ _ (h.conn ca (by simp) u hu v hv)
      have hB := fun u hu v hv => hmono _ _ (h.conn cb (by simp) u hu v hv)
      rcases (hmem u).mp hu with hu | hu <;> rcases (hmem v).mp hv with hv | hv
      · exact hA u hu v hv
      · exact ((hA u hu a ha).trans hab).trans (hB b hb v hv)
      · exact ((hB u hu b hb).trans hba).trans (hA a ha v hv)
      · exact hB u hu v hv
    · exact hmono _ _ (h.conn c (by simp [hc]) u hu v hv)

/-- A variable leaves its cluster, which is split. -/
theorem Parts.split {nb nb' : Var → List Var} {done done' D : List Var} {rest parts : List (List Var)}
    {c : List Var} {x : Var} (h : Parts nb done (c :: rest)) (hx : x ∈ c)
    (hnb : ∀ u v, u ≠ x → v ≠ x → (v ∈ nb' u ↔ v ∈ nb u))
    (hp : Parts nb' D parts) (hD : ∀ w, w ∈ D ↔ w ∈ c ∧ w ≠ x)
    (hdone : ∀ w, w ∈ done' ↔ w ∈ done ∧ w ≠ x) :
    Parts nb' done' (rest ++ parts) := by
  have hsub : ∀ c' ∈ c :: rest, ∀ v ∈ c', v ∈ done := fun c hc v hv =>
    (h.mem v).mp (List.mem_flatten.mpr ⟨c, hc, hv⟩)
  have hnd := h.nodup
  rw [List.flatten_cons] at hnd
  have hnd1 := List.nodup_append'.mp hnd
  have hpd : ∀ c' ∈ parts, ∀ v ∈ c', v ∈ c ∧ v ≠ x := fun c' hc' v hv =>
    (hD v).mp ((hp.mem v).mp (List.mem_flatten.mpr ⟨c', hc', hv⟩))
  have hrx : ∀ c' ∈ rest, ∀ v ∈ c', v ≠ x := by
    rintro c' hc' v hv rfl
    exact hnd1.2.2 hx (List.mem_flatten.mpr ⟨c', hc', hv⟩)
  refine ⟨?_, ?_, ?_, ?_, ?_⟩
  · rw [List.flatten_append]
    refine List.Nodup.append hnd1.2.1 hp.nodup ?_
    intro v hv hv'
    obtain ⟨c', hc', hv'⟩ := List.mem_flatten.mp hv'
    exact hnd1.2.2 (hpd c' hc' v hv').1 hv
  · intro v
    rw [List.flatten_append, List.mem_append, hp.mem, hD, hdone, ← h.mem v, List.flatten_cons,
      List.mem_append]
    constructor
    · rintro (hv | hv)
      · obtain ⟨c', hc', hv'⟩ := List.mem_flatten.mp hv
        exact ⟨Or.inr hv, hrx c' hc' v hv'⟩
      · exact ⟨Or.inl hv.1, hv.2⟩
    · rintro ⟨hv | hv, hne⟩
      · exact Or.inr ⟨hv, hne⟩
      · exact Or.inl hv
  · intro c' hc'
    rcases List.mem_append.mp hc' with hc' | hc'
    · exact h.ne c' (by simp [hc'])
    · exact hp.ne c' hc'
  · intro c' hc' u hu v hv hvu
    have hv' := (hdone v).mp hv
    rcases List.mem_append.mp hc' with hc' | hc'
    · exact h.closed c' (by simp [hc']) u hu v hv'.1 ((hnb u v (hrx c' hc' u hu) hv'.2).mp hvu)
    · have hu' := hpd c' hc' u hu
      have : v ∈ c := h.closed c (by simp) u hu'.1 v hv'.1 ((hnb u v hu'.2 hv'.2).mp hvu)
      exact hp.closed c' hc' u hu v ((hD v).mpr ⟨this, hv'.2⟩) hvu
  · intro c' hc' u hu v hv
    rcases List.mem_append.mp hc' with hc' | hc'
    · -- a chain from `u` stays in its cluster
      have hr := h.conn c' (by simp [hc']) u hu v hv
      clear hv
      have : v ∈ c' ∧ Relation.ReflTransGen (fun a b => a ∈ done' ∧ b ∈ done' ∧ b ∈ nb' a) u v := by
        induction hr with
        | refl => exact ⟨hu, .refl⟩
        | tail _ hbc ih =>
          obtain ⟨h1, h2, h3⟩ := hbc
          have hc := h.closed c' (by simp [hc']) _ ih.1 _ h2 h3
          refine ⟨hc, ih.2.tail ⟨(hdone _).mpr ⟨h1, hrx c' hc' _ ih.1⟩, (hdone _).mpr ⟨h2, hrx c' hc' _ hc⟩,
            (hnb _ _ (hrx c' hc' _ ih.1) (hrx c' hc' _ hc)).mpr h3⟩⟩
      exact this.2
    · refine Relation.ReflTransGen.mono ?_ _ _ (hp.conn c' hc' u hu v hv)
      rintro a b ⟨h1, h2, h3⟩
      have ha := (hD a).mp h1
      have hb := (hD b).mp h2
      exact ⟨(hdone a).mpr ⟨hsub c (by simp) a ha.1, ha.2⟩,
        (hdone b).mpr ⟨hsub c (by simp) b hb.1, hb.2⟩, h3⟩

/-- Two members of one cluster are linked, and linked members of the clusters are in the same one. -/
theorem Parts.same_iff {nb : Var → List Var} {done : List Var} {res : List (List Var)}
    (h : Parts nb done res) {u : Var} (hu : u ∈ done) (v : Var) :
    (∃ c ∈ res, u ∈ c ∧ v ∈ c) ↔
      Relation.ReflTransGen (fun a b => a ∈ done ∧ b ∈ done ∧ b ∈ nb a) u v := by
  constructor
  · rintro ⟨c, hc, h1, h2⟩
    exact h.conn c hc u h1 v h2
  · intro hr
    obtain ⟨c, hc, huc⟩ := List.mem_flatten.mp ((h.mem u).mpr hu)
    refine ⟨c, hc, huc, ?_⟩
    induction hr with
    | refl => exact huc
    | tail _ hbc ih =>
      obtain ⟨_, h2, h3⟩ := hbc
      exact h.closed c hc _ ih _ h2 h3

theorem eraseIdx_modify_perm {α : Type u} (f : α → α) : ∀ (l : List α) (i j : Nat) (hi : i < l.length)
    (hj : j < l.length), i ≠ j → ∃ rest, l.Perm (l[i] :: l[j] :: rest) ∧
      ((l.modify i f).eraseIdx j).Perm (f l[i] :: rest) := by
  intro l
  induction l with
  | nil => intro i j hi; simp at hi
  | cons c l ih =>
    intro i j hi hj hne
    cases i with
    | zero =>
      cases j with
      | zero => exact absurd rfl hne
      | succ j =>
        simp only [List.length_cons, Nat.add_lt_add_iff_right] at hj
        refine ⟨l.eraseIdx j, ?_, ?_⟩
        · simpa using (List.getElem_cons_eraseIdx_perm hj).symm
        · simp
    | succ i =>
      simp only [List.length_cons, Nat.add_lt_add_iff_right] at hi
      cases j with
      | zero =>
        refine ⟨l.eraseIdx i, ?_, ?_⟩
        · simp only [List.getElem_cons_succ, List.getElem_cons_zero]
          exact ((List.getElem_cons_eraseIdx_perm hi).symm.cons c).trans (List.Perm.swap _ _ _)
        · simp only [List.modify_succ_cons, List.eraseIdx_cons_zero, List.getElem_cons_succ]
          have := List.getElem_cons_eraseIdx_perm (l := l.modify i f) (n := i) (by simpa using hi)
          simp only [List.getElem_modify_eq] at this
          refine this.symm.trans (List.Perm.cons _ (List.Perm.of_eq ?_))
          apply List.ext_getElem
          · simp [List.length_eraseIdx]
          · intro k h1 h2
            simp only [List.getElem_eraseIdx, List.getElem_modify]
            split <;> (rw [if_neg (by omega)])
      | succ j =>
        simp only [List.length_cons, Nat.add_lt_add_iff_right] at hj
        obtain ⟨rest, h1, h2⟩ := ih i j hi hj (by omega)
        refine ⟨c :: rest, ?_, ?_⟩
        · simp only [List.getElem_cons_succ]
          refine (h1.cons c).trans ?_
          exact (List.Perm.swap _ _ _).trans (List.Perm.cons _ (List.Perm.swap _ _ _))
        · simp only [List.modify_succ_cons, List.eraseIdx_cons_succ, List.getElem_cons_succ]
          exact (h2.cons c).trans (List.Perm.swap _ _ _)

end Clusters
end EFG
