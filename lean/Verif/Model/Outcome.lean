/-
Outcomes of C++ calls.

A call returns normally, throws an `EFG::Error` (src/header/EasyFactorGraph/Error.h), or has
undefined behaviour. Nothing is assumed about a program after undefined behaviour, so `ub` carries
no value and no state.
-/

namespace EFG

/-- Outcome of a call which does not change any object. -/
inductive Res (α : Type u) : Type u where
  | ok (a : α)
  | throw
  | ub
deriving DecidableEq, Repr

namespace Res

@[inline] def bind {α : Type u} {β : Type v} (x : Res α) (f : α → Res β) : Res β :=
  match x with
  | ok a => f a
  | throw => throw
  | ub => ub

instance : Monad Res where
  pure := Res.ok
  bind := Res.bind

@[simp] theorem pure_eq {α : Type u} (a : α) : (pure a : Res α) = ok a := rfl
@[simp] theorem bind_ok {α β : Type u} (a : α) (f : α → Res β) : (ok a >>= f) = f a := rfl
@[simp] theorem bind_throw {α β : Type u} (f : α → Res β) : ((throw : Res α) >>= f) = throw := rfl
@[simp] theorem bind_ub {α β : Type u} (f : α → Res β) : ((ub : Res α) >>= f) = ub := rfl

theorem bind_eq_ok {α β : Type u} {x : Res α} {f : α → Res β} {b : β} :
    (x >>= f) = ok b ↔ ∃ a, x = ok a ∧ f a = ok b := by
  cases x <;> simp

instance : LawfulMonad Res := LawfulMonad.mk'
  (id_map := by intro α x; cases x <;> rfl)
  (pure_bind := by intros; rfl)
  (bind_assoc := by intro α β γ x f g; cases x <;> rfl)

/-- Turns a failed lookup (out of range index, dangling or null pointer) into undefined behaviour. -/
def ofOption {α : Type u} : Option α → Res α
  | some a => ok a
  | none => ub

@[simp] theorem ofOption_some {α : Type u} (a : α) : ofOption (some a) = ok a := rfl
@[simp] theorem ofOption_none {α : Type u} : ofOption (none : Option α) = ub := rfl

/-- Runs `f` on all the elements of a list in order, stopping at the first failure. -/
def mapList {α : Type u} {β : Type v} (f : α → Res β) : List α → Res (List β)
  | [] => ok []
  | a :: l =>
    match f a with
    | ok b =>
      match mapList f l with
      | ok bs => ok (b :: bs)
      | throw => throw
      | ub => ub
    | throw => throw
    | ub => ub

/-- Left fold of a call over a list, stopping at the first failure. -/
def foldList {α : Type u} {β : Type v} (f : β → α → Res β) : β → List α → Res β
  | b, [] => ok b
  | b, a :: l =>
    match f b a with
    | ok b' => foldList f b' l
    | throw => throw
    | ub => ub

end Res

/-- Outcome of a call which changes the state `σ` of some objects; `throw` carries the state left
behind by the exception. -/
inductive Out (σ : Type u) (α : Type v) : Type (max u v) where
  | ok (s : σ) (a : α)
  | throw (s : σ)
  | ub
deriving DecidableEq, Repr

/-- Calls which change a state. -/
def M (σ : Type u) (α : Type v) : Type (max u v) := σ → Out σ α

namespace M

instance {σ : Type u} : Monad (M σ) where
  pure a := fun s => .ok s a
  bind x f := fun s =>
    match x s with
    | .ok s' a => f a s'
    | .throw s' => .throw s'
    | .ub => .ub

@[simp] theorem pure_apply {σ α : Type u} (a : α) (s : σ) : (pure a : M σ α) s = .ok s a := rfl

theorem bind_apply {σ α β : Type u} (x : M σ α) (f : α → M σ β) (s : σ) :
    (x >>= f) s = (match x s with
      | .ok s' a => f a s'
      | .throw s' => .throw s'
      | .ub => .ub) := rfl

end M
end EFG
