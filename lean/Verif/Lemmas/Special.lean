import Mathlib.Algebra.BigOperators.Ring.Finset
import Verif.Lemmas.Factor
import Verif.Lemmas.Ext
import Verif.Model.Special
/- Lemmas about the special unary factors. -/

set_option linter.unusedSectionVars false

namespace EFG

theorem lex_single (n : Nat) : lex [n] = (List.range n).map (fun i => [i]) := by
  simp [lex, ← List.map_eq_flatMap]

theorem valid_single {n : Nat} {q : List Nat} : Valid [n] q ↔ ∃ i < n, q = [i] := by
  constructor
  · intro h
    cases h with
    | cons h1 h2 => cases h2; exact ⟨_, h1, rfl⟩
  · rintro ⟨i, hi, rfl⟩; exact .cons hi .nil

theorem rank_single (n i : Nat) : rank [n] [i] = i := by simp [rank]

theorem Group.single_wf (v : Var) : (Group.single v).WF :=
  ⟨by simp [Group.single], by simp [Group.single, Distinct], List.Perm.refl _⟩

namespace Fn
section lawfree
variable {F : Type u} [Arith F]

/-- A well formed plain function of a single variable. -/
structure Unary (v : Var) (f : Fn F) : Prop where
  wf : f.WF
  vars : f.vars.group = [v]

theorem Unary.sizes {v : Var} {f : Fn F} (h : f.Unary v) : f.sizes = [v.size] := by
  rw [h.wf.sizes', h.vars]; rfl

theorem Unary.pos {v : Var} {f : Fn F} (h : f.Unary v) : 0 < v.size :=
  h.wf.sizes_pos v (by rw [h.vars]; simp)

theorem Unary.entries {v : Var} {f : Fn F} (h : f.Unary v) :
    f.entries = .ok ((List.range v.size).map (fun i => ([i], f.timg [i]))) := by
  rw [h.wf.entries, h.sizes, lex_single, List.map_map]; rfl

theorem Unary.images {v : Var} {f : Fn F} (h : f.Unary v) :
    f.images = .ok ((List.range v.size).map (fun i => f.timg [i])) := by
  rw [h.wf.images, h.sizes, lex_single, List.map_map]; rfl

theorem Unary.find {v : Var} {f : Fn F} (h : f.Unary v) {i : Nat} (hi : i < v.size) :
    f.findTransformed [i] = .ok (f.timg [i]) :=
  h.wf.findTransformed (by rw [h.sizes]; exact valid_single.2 ⟨i, hi, rfl⟩)

theorem Unary.frontVar {v : Var} {f : Fn F} (h : f.Unary v) : f.frontVar = .ok v := by
  simp [Fn.frontVar, h.vars]

theorem single_unary {v : Var} (hv : 0 < v.size) : (ofGroup (Group.single v) : Fn F).Unary v :=
  ⟨ofGroup_wf (Group.single_wf v) (by simp [Group.single, hv]), rfl⟩

/-- A dense function of one variable. -/
theorem dense_unary {v : Var} (hv : 0 < v.size) {xs : List F} (hx : xs.length = v.size) :
    ({ (ones v : Fn F) with data := .dense xs } : Fn F).Unary v ∧
    ∀ i, ({ (ones v : Fn F) with data := .dense xs } : Fn F).timg [i] = xs.getD i Arith.zero := by
  have h := single_unary (F := F) hv
  refine ⟨⟨⟨h.wf.group, h.wf.sizes_eq, h.wf.tot_eq, h.wf.pos, ?_⟩, rfl⟩, ?_⟩
  · show xs.length = [v.size].prod
    simp [hx]
  · intro i
    rw [timg_plain (by rfl)]
    show xs.getD (rank [v.size] [i]) Arith.zero = _
    rw [rank_single]

theorem ones_unary {v : Var} (hv : 0 < v.size) : (ones v : Fn F).Unary v ∧
    ∀ i < v.size, (ones v : Fn F).timg [i] = Arith.one := by
  obtain ⟨h1, h2⟩ := dense_unary (F := F) hv (xs := List.replicate v.size Arith.one) (by simp)
  refine ⟨h1, fun i hi => ?_⟩
  show ({ (ones v : Fn F) with data := _ } : Fn F).timg [i] = _
  rw [h2]
  simp [List.getD, hi]

theorem mulVec_eq {xs ys : List F} (h : xs.length = ys.length) :
    mulVec xs ys = .ok (List.zipWith Arith.mul xs ys) := by
  induction xs generalizing ys with
  | nil => cases ys with
    | nil => rfl
    | cons y ys => simp at h
  | cons x xs ih => cases ys with
    | nil => simp at h
    | cons y ys => simp [mulVec, ih (ys := ys) (by simpa using h)]

theorem mergeInto_eq {v : Var} {f : Fn F} (h : f.Unary v) {g : Nat → F} :
    mergeInto v ((List.range v.size).map g) f =
      .ok ((List.range v.size).map (fun i => Arith.mul (g i) (f.timg [i]))) := by
  unfold mergeInto
  rw [h.vars]
  simp only [ne_eq, not_true_eq_false, if_false, h.images]
  rw [mulVec_eq (by simp)]
  simp [List.zipWith_map, List.zipWith_self]

/-- The product of the images, computed from the left. -/
def prodImg (fs : List (Fn F)) (i : Nat) : F :=
  fs.foldl (fun acc f => Arith.mul acc (f.timg [i])) Arith.one

theorem mergeFold_eq {v : Var} {fs : List (Fn F)} (h : ∀ f ∈ fs, f.Unary v) (g : Nat → F) :
    Res.foldList (mergeInto v) ((List.range v.size).map g) fs =
      .ok ((List.range v.size).map
        (fun i => fs.foldl (fun acc f => Arith.mul acc (f.timg [i])) (g i))) := by
  induction fs generalizing g with
  | nil => rfl
  | cons f fs ih =>
    rw [Res.foldList_cons_ok (mergeInto_eq (h f (by simp))), ih (fun f hf => h f (by simp [hf]))]
    rfl

/-- The merged unaries as a function of the products. -/
theorem mergedUnaries_form {v : Var} {fs : List (Fn F)} (hne : fs ≠ []) (h : ∀ f ∈ fs, f.Unary v) :
    mergedUnaries fs = match normalizeVec ((List.range v.size).map (prodImg fs)) with
      | .ok ys => .ok { (ones v : Fn F) with data := .dense ys }
      | .throw => .throw
      | .ub => .ub := by
  cases fs with
  | nil => exact absurd rfl hne
  | cons f fs =>
    have hr : (List.replicate v.size Arith.one : List F) =
        (List.range v.size).map (fun _ => Arith.one) := by simp
    unfold mergedUnaries
    simp only [(h f (by simp)).frontVar]
    rw [hr, mergeFold_eq h]
    rfl

theorem mergedUnaries_eq {v : Var} {fs : List (Fn F)} (hne : fs ≠ []) (h : ∀ f ∈ fs, f.Unary v) :
    ∃ m M, mergedUnaries fs = .ok m ∧ m.Unary v ∧ m.weight = none ∧
      Arith.maxElement ((List.range v.size).map (prodImg fs)) = .ok M ∧
      ∀ i < v.size, m.timg [i] = Arith.mul (prodImg fs i) (Arith.div Arith.one M) := by
  cases fs with
  | nil => exact absurd rfl hne
  | cons f fs =>
    have hf := h f (by simp)
    have hpos := hf.pos
    obtain ⟨M, hM⟩ : ∃ M, Arith.maxElement ((List.range v.size).map (prodImg (f :: fs))) = .ok M := by
      cases hl : (List.range v.size).map (prodImg (f :: fs)) with
      | nil => simp at hl; omega
      | cons x l => exact ⟨_, rfl⟩
    have hr : (List.replicate v.size Arith.one : List F) =
        (List.range v.size).map (fun _ => Arith.one) := by simp
    have hm : mergedUnaries (f :: fs) = .ok { (ones v : Fn F) with
        data := .dense ((List.range v.size).map
          (fun i => Arith.mul (prodImg (f :: fs) i) (Arith.div Arith.one M))) } := by
      unfold mergedUnaries
      simp only [hf.frontVar]
      rw [hr, mergeFold_eq h]
      simp only [normalizeVec]
      rw [show ((List.range v.size).map fun i => (f :: fs).foldl
        (fun acc f => Arith.mul acc (f.timg [i])) Arith.one) =
          (List.range v.size).map (prodImg (f :: fs)) from rfl, hM]
      simp
    obtain ⟨h1, h2⟩ := dense_unary (F := F) hpos (xs := (List.range v.size).map
          (fun i => Arith.mul (prodImg (f :: fs) i) (Arith.div Arith.one M))) (by simp)
    refine ⟨_, M, hm, h1, rfl, hM, fun i hi => ?_⟩
    rw [h2]
    simp [List.getD, hi]

theorem indicator_eq {v : Var} {k : Nat} (hk : k < v.size) :
    ∃ m : Fn F, indicator v k = .ok m ∧ m.Unary v ∧ m.weight = none ∧
      ∀ i < v.size, m.timg [i] = if i = k then Arith.one else Arith.zero := by
  have h := single_unary (F := F) (v := v) (by omega)
  obtain ⟨f', h1, h2, h3, _, h5, h6⟩ := h.wf.set (comb := [k]) (x := Arith.one)
    (by rw [h.sizes]; exact valid_single.2 ⟨k, hk, rfl⟩)
  refine ⟨f', ?_, ⟨h2, by rw [h3, h.vars]⟩, h5, ?_⟩
  · unfold indicator
    rw [if_neg (by omega), h1]
  · intro i hi
    rw [timg_plain h5, h6 [i] (by rw [h.sizes]; exact valid_single.2 ⟨i, hi, rfl⟩)]
    simp [ofGroup_img]

/-- A well formed function of two variables, in either order. -/
structure Binary (x y : Var) (f : Fn F) : Prop where
  wf : f.WF
  vars : f.vars.group = [x, y] ∨ f.vars.group = [y, x]
  ne : x ≠ y

/-- The transformed image at `x = i`, `y = j`. -/
def bimg (x : Var) (f : Fn F) (i j : Nat) : F :=
  match f.vars.group with
  | w :: _ => if w = x then f.timg [i, j] else f.timg [j, i]
  | [] => Arith.zero

theorem Binary.symm {x y : Var} {f : Fn F} (h : f.Binary x y) : f.Binary y x :=
  ⟨h.wf, h.vars.symm, h.ne.symm⟩

theorem Binary.bimg_swap {x y : Var} {f : Fn F} (h : f.Binary x y) (i j : Nat) :
    bimg y f j i = bimg x f i j := by
  have := h.ne
  rcases h.vars with hv | hv <;> simp [bimg, hv, this, this.symm]

theorem Binary.posl {x y : Var} {f : Fn F} (h : f.Binary x y) : 0 < x.size :=
  h.wf.sizes_pos x (by rcases h.vars with hv | hv <;> simp [hv])

theorem Binary.posr {x y : Var} {f : Fn F} (h : f.Binary x y) : 0 < y.size := h.symm.posl

theorem binary_of_perm {x y : Var} {f : Fn F} (h : f.WF) (hp : f.vars.group.Perm [x, y]) :
    f.Binary x y := by
  refine ⟨h, ?_, ?_⟩
  · have hl : f.vars.group.length = 2 := hp.length_eq
    match hg : f.vars.group, hl with
    | [a, b], _ =>
      rw [hg] at hp
      have ha : a ∈ [x, y] := hp.subset (by simp)
      simp only [List.mem_cons, List.not_mem_nil, or_false] at ha
      rcases ha with rfl | rfl
      · left; have := (List.perm_cons _).1 hp; rw [List.perm_singleton.1 this]
      · right
        have : [a, b].Perm [a, x] := hp.trans (List.Perm.swap _ _ _)
        have := (List.perm_cons _).1 this; rw [List.perm_singleton.1 this]
  · have := hp.nodup_iff.1 h.nodup
    simpa using this

theorem Binary.bimg_map {x y : Var} {f : Fn F} (h : f.Binary x y) (a : Assign) :
    f.timg (f.vars.group.map a) = bimg x f (a x) (a y) := by
  have := h.ne
  rcases h.vars with hv | hv <;> simp [bimg, hv, this.symm]

theorem valid_pair {n m : Nat} {q : List Nat} : Valid [n, m] q ↔ ∃ i < n, ∃ j < m, q = [i, j] := by
  constructor
  · intro h
    cases h with
    | cons h1 h2 => cases h2 with
      | cons h2 h3 => cases h3; exact ⟨_, h1, _, h2, rfl⟩
  · rintro ⟨i, hi, j, hj, rfl⟩; exact .cons hi (.cons hj .nil)

theorem Binary.otherVar {x y : Var} {f : Fn F} (h : f.Binary x y) : f.otherVar x = .ok y := by
  have := h.ne
  rcases h.vars with hv | hv <;> simp [Fn.otherVar, hv, this.symm]

/-- Conditioning a binary function: the unary function of `x` when `y` is observed. -/
theorem Binary.evidence {x y : Var} {f : Fn F} (h : f.Binary x y) {k : Nat} (hk : k < y.size) :
    ∃ m : Fn F, f.evidence y k = .ok m ∧ m.Unary x ∧ m.weight = none ∧
      ∀ i < x.size, m.timg [i] = bimg x f i k := by
  have hu := single_unary (F := F) h.posl
  have hne := h.ne
  -- the positions
  obtain ⟨pe, ph, hpos, hcomb⟩ : ∃ pe ph, f.positions x = .ok (ph, pe) ∧
      ∀ i j, ∃ c, c = (if f.vars.group = [x, y] then [i, j] else [j, i]) ∧
        c[pe]? = some j ∧ c[ph]? = some i := by
    rcases h.vars with hv | hv
    · exact ⟨1, 0, by simp [Fn.positions, hv, hne.symm], fun i j => ⟨_, rfl, by simp [hv], by simp [hv]⟩⟩
    · refine ⟨0, 1, by simp [Fn.positions, hv], fun i j => ⟨_, rfl, ?_, ?_⟩⟩ <;>
        simp [hv, hne.symm]
  have hvalid : ∀ c ∈ lex f.sizes, ∃ i < x.size, ∃ j < y.size,
      c = if f.vars.group = [x, y] then [i, j] else [j, i] := by
    intro c hc
    rw [mem_lex, h.wf.sizes'] at hc
    rcases h.vars with hv | hv
    · rw [hv] at hc
      obtain ⟨i, hi, j, hj, rfl⟩ := valid_pair.1 hc
      exact ⟨i, hi, j, hj, by simp [hv]⟩
    · rw [hv] at hc
      obtain ⟨i, hi, j, hj, rfl⟩ := valid_pair.1 hc
      exact ⟨j, hj, i, hi, by simp [hv, hne.symm]⟩
  -- one round of the visit
  have hstep : ∀ (r : Fn F) (e : List Nat × F), e ∈ (lex f.sizes).map (fun c => (c, f.timg c)) →
      Fn.evidenceStep pe ph k r e = if e.1[pe]? = some k then r.set [e.1.getD ph 0] e.2 else .ok r := by
    intro r e he
    obtain ⟨c, hc, rfl⟩ := List.mem_map.1 he
    obtain ⟨i, hi, j, hj, rfl⟩ := hvalid c hc
    obtain ⟨c, rfl, h1, h2⟩ := hcomb i j
    have h2' := h2
    rw [List.getElem?_eq_some_iff] at h2'
    simp only [Fn.evidenceStep, h1, h2, List.getD]
    simp
  have hfold : f.evidence y k = Res.foldList
      (fun (r : Fn F) (e : List Nat × F) => if e.1[pe]? = some k then r.set [e.1.getD ph 0] e.2 else .ok r)
      (ofGroup (Group.single x)) ((lex f.sizes).map (fun c => (c, f.timg c))) := by
    unfold Fn.evidence
    rw [h.symm.otherVar]
    simp only [hpos, h.wf.entries]
    exact Res.foldList_congr hstep _
  -- induction over the visited combinations
  have gen : ∀ (l : List (List Nat)) (r : Fn F), (∀ c ∈ l, c ∈ lex f.sizes) → r.Unary x →
      r.weight = none →
      ∃ m : Fn F, Res.foldList
        (fun (r : Fn F) (e : List Nat × F) => if e.1[pe]? = some k then r.set [e.1.getD ph 0] e.2 else .ok r)
        r (l.map (fun c => (c, f.timg c))) = .ok m ∧ m.Unary x ∧ m.weight = none ∧
        ∀ i < x.size, m.timg [i] =
          if (if f.vars.group = [x, y] then [i, k] else [k, i]) ∈ l then bimg x f i k
          else r.timg [i] := by
    intro l
    induction l with
    | nil => intro r _ hr hw; exact ⟨r, rfl, hr, hw, fun i _ => by simp⟩
    | cons c l ih =>
      intro r hl hr hw
      obtain ⟨i, hi, j, hj, hcij⟩ := hvalid c (hl c (by simp))
      obtain ⟨c', hc', h1, h2⟩ := hcomb i j
      obtain rfl : c = c' := hcij.trans hc'.symm
      have hb : f.timg c = bimg x f i j := by
        rcases h.vars with hv | hv <;> simp [bimg, hcij, hv, hne.symm]
      by_cases hjk : j = k
      · subst hjk
        obtain ⟨r', e1, e2, e3, e4, e5, e6⟩ := hr.wf.set (comb := [i]) (x := f.timg c)
          (by rw [hr.sizes]; exact valid_single.2 ⟨i, hi, rfl⟩)
        obtain ⟨m, m1, m2, m3, m4⟩ := ih r' (fun c hc => hl c (by simp [hc]))
          ⟨e2, by rw [e3, hr.vars]⟩ (by rw [e5, hw])
        refine ⟨m, ?_, m2, m3, ?_⟩
        · simp only [List.map_cons]
          rw [Res.foldList_cons_ok (b' := r') _]
          · exact m1
          · simp only [h1, if_true, List.getD, h2, Option.getD_some]; exact e1
        · intro i' hi'
          rw [m4 i' hi']
          have : r'.timg [i'] = if i' = i then bimg x f i j else r.timg [i'] := by
            rw [timg_plain (by rw [e5, hw]), e6 [i'] (by rw [hr.sizes]; exact valid_single.2 ⟨i', hi', rfl⟩),
              hb, timg_plain hw]
            simp
          by_cases hii : i' = i
          · subst hii
            simp only [this, if_true, ← hcij, List.mem_cons, true_or]
            simp
          · have hcc : (if f.vars.group = [x, y] then [i', j] else [j, i']) ≠ c := by
              rw [hcij]; split <;> simp [hii]
            rw [this, if_neg hii]
            simp [hcc]
      · obtain ⟨m, m1, m2, m3, m4⟩ := ih r (fun c hc => hl c (by simp [hc])) hr hw
        refine ⟨m, ?_, m2, m3, ?_⟩
        · simp only [List.map_cons]
          rw [Res.foldList_cons_ok (b' := r) _]
          · exact m1
          · simp [h1, hjk]
        · intro i' hi'
          rw [m4 i' hi']
          have hcc : (if f.vars.group = [x, y] then [i', k] else [k, i']) ≠ c := by
            rw [hcij]; split <;> simp [Ne.symm hjk]
          simp [hcc]
  obtain ⟨m, m1, m2, m3, m4⟩ := gen (lex f.sizes) _ (fun c hc => hc) hu rfl
  refine ⟨m, by rw [hfold, m1], m2, m3, fun i hi => ?_⟩
  rw [m4 i hi, if_pos]
  rw [mem_lex, h.wf.sizes']
  rcases h.vars with hv | hv
  · simp only [hv, if_true]; exact valid_pair.2 ⟨i, hi, k, hk, rfl⟩
  · simp only [hv, List.cons.injEq, hne.symm, false_and, if_false]
    exact valid_pair.2 ⟨k, hk, i, hi, rfl⟩

/-- The value written by `fill_message` at `r`: the factor is read at `sender = r`, `receiver = s`. -/
def msgVal (kind : Kind) (x : Var) (ms b : Fn F) (r : Nat) : F :=
  (List.range x.size).foldl
    (fun acc s => reduceStep kind acc (Arith.mul (ms.timg [s]) (bimg x b r s))) (reduceInit kind)

theorem Binary.messageValue {x y : Var} {b ms : Fn F} (h : b.Binary x y)
    (kind : Kind) (hs : x.size ≤ y.size) {mp sp : Nat} (hpos : b.positions x = .ok (mp, sp)) {r : Nat}
    (hr : r < x.size) :
    messageValue kind b sp mp r ((List.range x.size).map (fun i => ([i], ms.timg [i]))) =
      .ok (msgVal kind x ms b r) := by
  unfold Fn.messageValue msgVal
  rw [Res.foldList_pure (g := fun acc e =>
    reduceStep kind acc (Arith.mul e.2 (bimg x b r (e.1.headD 0))))]
  · rw [List.foldl_map]; rfl
  · intro acc e he
    obtain ⟨i, hi, rfl⟩ := List.mem_map.1 he
    have hi : i < x.size := by simpa using hi
    simp only [messageValueStep, List.head?_cons, List.headD]
    have : b.findTransformed (binaryComb sp mp i r) = .ok (bimg x b r i) := by
      have hne := h.ne
      rcases h.vars with hv | hv
      · simp only [Fn.positions, hv, List.getLast?_cons_cons, List.getLast?_singleton, hne.symm,
          if_false, Res.ok.injEq, Prod.mk.injEq] at hpos
        obtain ⟨rfl, rfl⟩ := hpos
        have hq : Valid b.sizes [r, i] := by
          rw [h.wf.sizes', hv]; exact valid_pair.2 ⟨r, hr, i, by omega, rfl⟩
        simp only [binaryComb, List.set_cons_succ, List.set_cons_zero]
        rw [h.wf.findTransformed hq]
        simp [bimg, hv]
      · simp only [Fn.positions, hv, List.getLast?_cons_cons, List.getLast?_singleton, if_true,
          Res.ok.injEq, Prod.mk.injEq] at hpos
        obtain ⟨rfl, rfl⟩ := hpos
        have hq : Valid b.sizes [i, r] := by
          rw [h.wf.sizes', hv]; exact valid_pair.2 ⟨i, by omega, r, hr, rfl⟩
        simp only [binaryComb, List.set_cons_succ, List.set_cons_zero]
        rw [h.wf.findTransformed hq]
        simp [bimg, hv, hne.symm]
    rw [this]

/-- What `fill_message` computes when the sender has at most as many values as the receiver. -/
theorem Binary.message {x y : Var} {b ms : Fn F} (h : b.Binary x y) (hm : ms.Unary x)
    (kind : Kind) (hs : x.size ≤ y.size) :
    ∃ m : Fn F, Fn.message kind ms b = .ok m ∧ m.Unary y ∧ m.weight = none ∧
      ∀ j < y.size, m.timg [j] =
        if j < x.size then msgVal kind x ms b j else Arith.zero := by
  have hu := single_unary (F := F) h.posr
  obtain ⟨mp, sp, hpos, hmp⟩ : ∃ mp sp, b.positions x = .ok (mp, sp) ∧ b.vars.group[mp]? = some x := by
    have hne := h.ne
    rcases h.vars with hv | hv
    · exact ⟨0, 1, by simp [Fn.positions, hv, hne.symm], by simp [hv]⟩
    · exact ⟨1, 0, by simp [Fn.positions, hv], by simp [hv]⟩
  have hfold : Fn.message kind ms b = Res.foldList
      (fun (r : Fn F) (j : Nat) => setOpt [j] r (some (msgVal kind x ms b j)))
      (ofGroup (Group.single y)) (List.range x.size) := by
    unfold Fn.message
    rw [hm.frontVar]
    simp only [h.otherVar, hpos, hmp, hm.entries]
    apply Res.foldList_congr
    intro r j hj
    simp only [messageStep, setOpt]
    rw [h.messageValue kind hs hpos (by simpa using hj)]
  obtain ⟨m, h1, h2, h3, _, h5, h6, h7⟩ := hu.wf.setFold (List.range x.size) (fun j => [j])
    (fun j => some (msgVal kind x ms b j))
    (by
      intro j hj
      rw [hu.sizes]
      exact valid_single.2 ⟨j, by simp at hj; omega, rfl⟩)
    (by
      rw [List.nodup_map_iff (fun a b hab => by simpa using hab)]
      exact List.nodup_range)
  refine ⟨m, by rw [hfold, h1], ⟨h2, by rw [h3, hu.vars]⟩, h5, ?_⟩
  intro j hj
  rw [timg_plain h5]
  by_cases hjx : j < x.size
  · rw [if_pos hjx, h6 j (by simpa using hjx)]; rfl
  · rw [if_neg hjx, h7 [j] (by rw [hu.sizes]; exact valid_single.2 ⟨j, hj, rfl⟩) (by simpa using hjx),
      ofGroup_img]

end lawfree

section exact
variable {K : Type u} [Field K] [LinearOrder K] [FloatParams K]

theorem prodImg_val {fs : List (Fn (Ext K))} {i : Nat} (h : ∀ f ∈ fs, (f.timg [i]).IsVal) :
    prodImg fs i = .val ((fs.map (fun f => (f.timg [i]).toK)).prod) := by
  unfold prodImg
  have gen : ∀ (fs : List (Fn (Ext K))) (a : K), (∀ f ∈ fs, (f.timg [i]).IsVal) →
      fs.foldl (fun acc f => Arith.mul acc (f.timg [i])) (.val a) =
        .val (a * (fs.map (fun f => (f.timg [i]).toK)).prod) := by
    intro fs
    induction fs with
    | nil => intro a _; simp
    | cons f fs ih =>
      intro a h
      rw [List.foldl_cons, (h f (by simp)).eq, Ext.mul_val, ih _ (fun f hf => h f (by simp [hf]))]
      simp [mul_assoc]
  rw [Ext.one_eq, gen fs 1 h, one_mul]

/-- Reduction of a list of numbers: a sum, or a maximum which starts from `FLT_MIN`. -/
def redK : Kind → List K → K
  | .sum, l => l.sum
  | .map, l => Ext.maxK FloatParams.minK l

theorem msgVal_val {kind : Kind} {x : Var} {ms b : Fn (Ext K)} {r : Nat} {μ : Nat → K} {φ : Nat → K}
    (hμ : ∀ s < x.size, ms.timg [s] = .val (μ s)) (hφ : ∀ s < x.size, bimg x b r s = .val (φ s)) :
    msgVal kind x ms b r = .val (redK kind ((List.range x.size).map (fun s => μ s * φ s))) := by
  unfold msgVal
  have gen : ∀ (l : List Nat) (a : K), (∀ s ∈ l, s < x.size) →
      l.foldl (fun acc s => reduceStep kind acc (Arith.mul (ms.timg [s]) (bimg x b r s))) (.val a) =
        .val (match kind with
          | .sum => a + (l.map (fun s => μ s * φ s)).sum
          | .map => Ext.maxK a (l.map (fun s => μ s * φ s))) := by
    intro l
    induction l with
    | nil => intro a _; cases kind <;> simp [Ext.maxK]
    | cons s l ih =>
      intro a h
      rw [List.foldl_cons, hμ s (h s (by simp)), hφ s (h s (by simp)), Ext.mul_val]
      cases kind with
      | sum =>
        rw [show reduceStep Kind.sum (Ext.val a) (Ext.val (μ s * φ s)) = .val (a + μ s * φ s) from rfl,
          ih _ (fun s hs => h s (by simp [hs]))]
        simp [add_assoc]
      | map =>
        rw [show reduceStep Kind.map (Ext.val a) (Ext.val (μ s * φ s)) = .val (max a (μ s * φ s)) from
          Ext.max2_val _ _, ih _ (fun s hs => h s (by simp [hs]))]
        simp [Ext.maxK]
  cases kind with
  | sum =>
    simp only [reduceInit, Ext.zero_eq]
    rw [gen _ 0 (by simp)]
    simp [redK]
  | map =>
    simp only [reduceInit, Ext.fltMin_eq]
    rw [gen _ _ (by simp)]
    simp [redK]

end exact
end Fn
end EFG
