/-!
# Python semantics used by the model

Exceptions are values.  A Python function that can raise is modelled by a function into
`Res α = Except Err α`; the constructor of `Err` is the Python exception class.
-/

namespace Vdaf

/-- Python exception classes that the modelled code can raise.  `fuel` is not a Python
exception: it marks a run of a rejection-sampling `while` loop that did not finish within
the number of iterations given to the model. -/
inductive Err where
  | value (msg : String)
  | assertion (msg : String)
  | index
  | type
  | overflow
  | notImplemented
  | fuel
deriving DecidableEq, Repr, Inhabited

abbrev Res := Except Err

/-- `bytes` -/
abbrev Bytes := List UInt8

/-- `assert cond, msg` -/
def pyAssert (cond : Bool) (msg : String := "") : Res Unit :=
  if cond then .ok () else .error (.assertion msg)

/-- `if cond: raise ValueError(msg)` -/
def raiseIf (cond : Bool) (msg : String) : Res Unit :=
  if cond then .error (.value msg) else .ok ()

/-- `l[i]` for a non-negative index: raises `IndexError` when out of range. -/
def getI {α : Type _} (l : List α) (i : Nat) : Res α :=
  match l[i]? with
  | some x => .ok x
  | none => .error .index

/-- `l[i] = x` for a non-negative index: raises `IndexError` when out of range.
Returns the updated list. -/
def setI {α : Type _} (l : List α) (i : Nat) (x : α) : Res (List α) :=
  if i < l.length then .ok (l.set i x) else .error .index

/-- `for x in l: acc = f(acc, x)` where the body may raise. -/
def forFold {α β : Type _} (l : List α) (init : β) (f : β → α → Res β) : Res β :=
  match l with
  | [] => .ok init
  | a :: t =>
    match f init a with
    | .ok b => forFold t b f
    | .error e => .error e

/-- `[f(x) for x in l]` where `f` may raise. -/
def mapRes {α β : Type _} (f : α → Res β) : List α → Res (List β)
  | [] => .ok []
  | a :: t =>
    match f a with
    | .ok b =>
      match mapRes f t with
      | .ok bs => .ok (b :: bs)
      | .error e => .error e
    | .error e => .error e

/-- `l[a:b]` for non-negative `a`, `b` (Python slices never raise). -/
def slice {α : Type _} (l : List α) (a b : Nat) : List α :=
  (l.take b).drop a

end Vdaf
