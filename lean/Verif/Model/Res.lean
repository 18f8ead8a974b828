/-!
# Outcomes of functions

A modelled C++ function either returns (`ok`), throws an exception (`throw`) or has undefined behaviour
(`ub`).  Undefined behaviour is an outcome of its own, so a theorem `f x = .ok y` also says that running `f x`
never dereferences an invalid iterator, reads an uninitialised variable, and so on.  A loop that runs out of the
fuel the model gives it is also `ub` (an endless loop without side effects is undefined behaviour in C++).
-/

namespace Pctsp

/-- The exceptions that the modelled functions throw (include/pctsp/exception.hh, std, and those of the Python code). -/
inductive Exn where
  /-- `EdgeNotFoundException`, exception.hh 17-30 -/
  | edgeNotFound (u v : Nat)
  /-- `VertexNotFoundException`, exception.hh 32-36 -/
  | vertexNotFound (v : Nat)
  /-- `NoSelfLoopFoundException`, exception.hh 38-42 -/
  | noSelfLoopFound (v : Nat)
  /-- `VertexInWrongSetException`, exception.hh 44-53 -/
  | vertexInWrongSet (v : Nat)
  /-- `VariableIsNullException`, exception.hh 55-63 -/
  | variableIsNull
  /-- `NoGainVertexFoundException`, exception.hh 11-15 -/
  | noGainVertexFound
  /-- `std::invalid_argument` -/
  | invalidArgument (u v : Nat)
  /-- `std::length_error`, thrown by the constructor of `std::vector` for a negative size -/
  | lengthError
  /-- `boost::negative_edge`, thrown by Dijkstra's algorithm -/
  | negativeEdge
  /-- Python: `ValueError` -/
  | valueError
  /-- Python: `KeyError` -/
  | keyError
  /-- Python: `IndexError` -/
  | indexError
  /-- Python: `RecursionError` -/
  | recursionError
  /-- Python: `NotImplementedError` -/
  | notImplementedError
  deriving DecidableEq, Repr

/-- Outcome of a C++ function. -/
inductive Res (α : Type) where
  | ok (a : α)
  | throw (e : Exn)
  | ub (why : String)
  deriving DecidableEq, Repr

namespace Res

/-- Sequencing: exceptions and undefined behaviour propagate. -/
def bind {α β : Type} (x : Res α) (f : α → Res β) : Res β :=
  match x with
  | ok a => f a
  | throw e => throw e
  | ub w => ub w

instance : Monad Res where
  pure := ok
  bind := Res.bind

variable {α β : Type}

@[simp] theorem pure_eq (a : α) : (pure a : Res α) = ok a := rfl
@[simp] theorem ok_bind (a : α) (f : α → Res β) : (ok a >>= f) = f a := rfl
@[simp] theorem throw_bind (e : Exn) (f : α → Res β) : (throw e >>= f) = throw e := rfl
@[simp] theorem ub_bind (w : String) (f : α → Res β) : (ub w >>= f) = ub w := rfl
@[simp] theorem map_ok (a : α) (f : α → β) : f <$> (ok a : Res α) = ok (f a) := rfl
@[simp] theorem map_throw (e : Exn) (f : α → β) : f <$> (throw e : Res α) = throw e := rfl
@[simp] theorem map_ub (w : String) (f : α → β) : f <$> (ub w : Res α) = ub w := rfl

instance : LawfulMonad Res := LawfulMonad.mk'
  (id_map := fun x => by cases x <;> rfl)
  (pure_bind := fun _ _ => rfl)
  (bind_assoc := fun x _ _ => by cases x <;> rfl)
  (bind_pure_comp := fun _ x => by cases x <;> rfl)

theorem bind_eq_ok {x : Res α} {f : α → Res β} {b : β} :
    (x >>= f) = ok b ↔ ∃ a, x = ok a ∧ f a = ok b := by
  cases x <;> simp

theorem map_eq_ok {x : Res α} {f : α → β} {b : β} :
    (f <$> x) = ok b ↔ ∃ a, x = ok a ∧ f a = b := by
  cases x <;> simp

/-- Did the call have undefined behaviour? -/
def isUb : Res α → Bool
  | ub _ => true
  | _ => false

/-- Did the call return normally? -/
def isOk : Res α → Bool
  | ok _ => true
  | _ => false

end Res

/-- Map over a list in the `Res` monad, left to right. -/
def mapRes {α β : Type} (f : α → Res β) : List α → Res (List β)
  | [] => .ok []
  | a :: as => do
    let b ← f a
    let bs ← mapRes f as
    pure (b :: bs)

end Pctsp
