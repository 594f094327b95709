import Verif.Model.SumHeap

/-!
# What `+=` should mean

Ideal machine: every `TensorSum` object has a mathematical value (a function of the index); `x += y`
on a sum object adds the value of `y` to that one object; everything else allocates a new object.
-/

namespace TTS

variable {K : Type*} [CommSemiring K]

structure SumSpec (K : Type*) [Zero K] where
  env : ℕ → Option (Val K)
  vals : List (List ℕ → K)

namespace SumSpec

/-- value denoted by a tensor -/
def valOf (h : SumSpec K) : Val K → List ℕ → K
  | .leaf X => X.toNumpy.get
  | .ref a => h.vals.getD a 0

def bindNew (h : SumSpec K) (x : ℕ) (v : List ℕ → K) : SumSpec K :=
  ⟨Function.update h.env x (some (.ref h.vals.length)), h.vals ++ [v]⟩

def step (h : SumSpec K) : Stmt → Except PyErr (SumSpec K)
  | .iadd x y =>
    match h.env x, h.env y with
    | some (.ref a), some v => .ok { h with vals := h.vals.set a (h.valOf (.ref a) + h.valOf v) }
    | some (.leaf X), some v => .ok (h.bindNew x (X.toNumpy.get + h.valOf v))
    | _, _ => .error .nameError
  | .assign x y =>
    match h.env y with
    | some v => .ok { h with env := Function.update h.env x (some v) }
    | none => .error .nameError
  | .add x y z =>
    match h.env y, h.env z with
    | some v, some w => .ok (h.bindNew x (h.valOf v + h.valOf w))
    | _, _ => .error .nameError
  | .share _ _ => .error .notImplemented

def run (h : SumSpec K) : List Stmt → Except PyErr (SumSpec K)
  | [] => .ok h
  | s :: ss =>
    match h.step s with
    | .error e => .error e
    | .ok h' => h'.run ss

end SumSpec

/-- The mathematical values of the objects in the heap: the sum of the dense arrays of the
summands. -/
def SumHeap.denote (h : SumHeap K) : SumSpec K :=
  ⟨h.env, (List.range h.sums.length).map fun a i => ((h.listOf a).map fun t => t.toNumpy.get i).sum⟩

/-- Memory in which no two sum objects share a list object, references are allocated and no sum is
empty.  (The constructor called twice with one list object breaks this: `Stmt.share`.) -/
structure SumHeap.Ok (h : SumHeap K) : Prop where
  noShare : h.sums.Nodup
  alloc : ∀ l ∈ h.sums, l < h.lists.length
  nonempty : ∀ a < h.sums.length, h.listOf a ≠ []
  env : ∀ x a, h.env x = some (.ref a) → a < h.sums.length

end TTS
