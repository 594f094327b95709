import Verif.Model.Tensor

/-!
# `TensorSum` objects in memory (for `+=`)

`TensorSum.__iadd__` (`tensor.py` 645-650) changes the summand list in place, so object identity
matters.  The heap has list objects and `TensorSum` objects (each holding a reference to a list
object, `tensor.py` 622); names are bound to tensors.  Simplifications: the immutable formats are
values; the attribute `shape` of a `TensorSum` is not tracked; names are numbers.
-/

namespace TTS

variable {K : Type*} [Zero K]

/-- What a name is bound to: a tensor of one of the other formats, or a `TensorSum` object. -/
inductive Val (K : Type*) [Zero K]
  | leaf (X : Leaf K)
  | ref (a : ℕ)

structure SumHeap (K : Type*) [Zero K] where
  /-- bindings of names -/
  env : ℕ → Option (Val K)
  /-- `TensorSum` object number `a` uses the list object number `sums[a]` -/
  sums : List ℕ
  /-- contents of the list objects -/
  lists : List (List (Leaf K))

/-- Statements: `x += y`, `x = y`, `x = y + z`, `x = TensorSum(y.tensors)`. -/
inductive Stmt
  | iadd (x y : ℕ)
  | assign (x y : ℕ)
  | add (x y z : ℕ)
  | share (x y : ℕ)

namespace SumHeap

/-- contents of the list of `TensorSum` object `a` -/
def listOf (h : SumHeap K) (a : ℕ) : List (Leaf K) := h.lists.getD (h.sums.getD a 0) []

/-- summands contributed by a value (`tensor.py` 93-103, 639-650) -/
def summands (h : SumHeap K) : Val K → List (Leaf K)
  | .leaf X => [X]
  | .ref a => h.listOf a

/-- bind `x` to a fresh `TensorSum` object with a fresh list; `TensorSum([])` raises `IndexError`
(`tensor.py` 618-622) -/
def bindNew (h : SumHeap K) (x : ℕ) (l : List (Leaf K)) : Except PyErr (SumHeap K) :=
  if l = [] then .error .indexError
  else .ok ⟨Function.update h.env x (some (.ref h.sums.length)), h.sums ++ [h.lists.length],
    h.lists ++ [l]⟩

/-- One statement.  `x += y` calls `TensorSum.__iadd__` (`tensor.py` 645-650: `extend`/`append` on
the list object) when `x` is a `TensorSum`; the other classes have no `__iadd__`, so python runs
`x = x + y`. -/
def step (h : SumHeap K) : Stmt → Except PyErr (SumHeap K)
  | .iadd x y =>
    match h.env x, h.env y with
    | some (.ref a), some v =>
      .ok { h with lists := h.lists.set (h.sums.getD a 0) (h.listOf a ++ h.summands v) }
    | some (.leaf X), some v => h.bindNew x (X :: h.summands v)
    | _, _ => .error .nameError
  | .assign x y =>
    match h.env y with
    | some v => .ok { h with env := Function.update h.env x (some v) }
    | none => .error .nameError
  | .add x y z =>
    match h.env y, h.env z with
    | some v, some w => h.bindNew x (h.summands v ++ h.summands w)
    | _, _ => .error .nameError
  | .share x y =>
    match h.env y with
    | some (.ref a) =>
      if h.listOf a = [] then .error .indexError
      else .ok ⟨Function.update h.env x (some (.ref h.sums.length)), h.sums ++ [h.sums.getD a 0],
        h.lists⟩
    | some (.leaf _) => .error .attributeError
    | none => .error .nameError

/-- a program -/
def run (h : SumHeap K) : List Stmt → Except PyErr (SumHeap K)
  | [] => .ok h
  | s :: ss =>
    match h.step s with
    | .error e => .error e
    | .ok h' => h'.run ss

end SumHeap
end TTS
