import Mathlib.Logic.Basic

/-!
# Python exceptions and stateful methods

Exceptions are values.  A method of a Python object is a computation in `Meth σ`, where `σ` is the record of
the attributes it reads and writes.  The state that was written before a `raise` persists: that is why the
exception transformer is *outside* the state monad.
-/

namespace Verif.Py

/-- Kinds of Python exceptions raised by the modelled code. -/
inductive ErrKind
  | exception | valueError | typeError | nameError | attributeError | indexError
  | unboundLocal | assertion | zeroDivision | notImplemented | runtime
  deriving DecidableEq, Repr

/-- A raised exception: its class and the literal message (empty when the message comes from a library). -/
structure PyErr where
  kind : ErrKind
  msg : String := ""
  deriving DecidableEq, Repr

/-- Outcome of a pure function. -/
abbrev Res (α : Type*) := Except PyErr α

/-- A method on an object whose attributes are `σ`.  The new state is returned also when an exception is
raised. -/
def Meth (σ α : Type*) := σ → Res α × σ

namespace Meth
universe u v
variable {σ : Type u} {α β : Type v}

/-- Return a value without touching the state. -/
def ret (a : α) : Meth σ α := fun s => (.ok a, s)

/-- Sequential composition: after an exception nothing else is executed. -/
def andThen (m : Meth σ α) (f : α → Meth σ β) : Meth σ β := fun s =>
  match m s with
  | (.ok a, s') => f a s'
  | (.error e, s') => (.error e, s')

instance : Monad (Meth σ) where
  pure := ret
  bind := andThen

/-- `raise e`. -/
def raise (e : PyErr) : Meth σ α := fun s => (.error e, s)

/-- Read the attributes. -/
def get : Meth σ σ := fun s => (.ok s, s)

/-- Assign attributes. -/
def modify (f : σ → σ) : Meth σ Unit := fun s => (.ok (), f s)

/-- Run a function of a library that may raise. -/
def lift (r : Res α) : Meth σ α := fun s => (r, s)

/-- `try: m except E: h`, where `p` says which exceptions the clause catches. -/
def tryExcept (m : Meth σ α) (p : PyErr → Bool) (h : Meth σ α) : Meth σ α := fun s =>
  match m s with
  | (.ok a, s') => (.ok a, s')
  | (.error e, s') => if p e then h s' else (.error e, s')

@[simp] theorem pure_run (a : α) (s : σ) : (pure a : Meth σ α) s = (.ok a, s) := rfl
@[simp] theorem raise_run (e : PyErr) (s : σ) : (raise e : Meth σ α) s = (.error e, s) := rfl
@[simp] theorem get_run (s : σ) : (get : Meth σ σ) s = (.ok s, s) := rfl
@[simp] theorem modify_run (f : σ → σ) (s : σ) : (modify f : Meth σ Unit) s = (.ok (), f s) := rfl
@[simp] theorem lift_run (r : Res α) (s : σ) : (lift r : Meth σ α) s = (r, s) := rfl

theorem bind_run (m : Meth σ α) (f : α → Meth σ β) (s : σ) :
    (m >>= f) s = match m s with
      | (.ok a, s') => f a s'
      | (.error e, s') => (.error e, s') := rfl

@[simp] theorem bind_ok {m : Meth σ α} {f : α → Meth σ β} {s s' : σ} {a : α} (h : m s = (.ok a, s')) :
    (m >>= f) s = f a s' := by rw [bind_run, h]

@[simp] theorem bind_error {m : Meth σ α} {f : α → Meth σ β} {s s' : σ} {e : PyErr}
    (h : m s = (.error e, s')) : (m >>= f) s = (.error e, s') := by rw [bind_run, h]

end Meth

/-- Did the call return normally? -/
def Ok {α : Type*} (r : Res α) : Prop := ∃ a, r = .ok a

/-- Did the call raise an exception of kind `k`? -/
def Raises {α : Type*} (r : Res α) (k : ErrKind) : Prop := ∃ m, r = .error ⟨k, m⟩

end Verif.Py
