import Verif.Model.Objects
import Verif.Spec.Tensor
import Verif.Spec.Numerics

/-!
# What tensor objects stand for
-/

namespace TTS

variable {K : Type*}

mutual
/-- Entry `i` of the tensor an object stands for: a sketch stands for the tensor train `to_tt` returns, a lazy sum for
the sum of its summands. -/
def Obj.entry [CommRing K] (env : Env K) (i : List ℕ) : Obj K → K
  | .atom (.leaf X) => X.toNumpy.get i
  | .atom (.sketched S) =>
    match S.toTT env with
    | .ok Y => Y.toNumpy.get i
    | .error _ => 0
  | .sum _ ts => Obj.entryL env i ts

/-- The sum of the entries of several objects. -/
def Obj.entryL [CommRing K] (env : Env K) (i : List ℕ) : List (Obj K) → K
  | [] => 0
  | t :: ts => t.entry env i + Obj.entryL env i ts
end

mutual
/-- Well-formed objects of shape `sh`: the stored data is, no sparse tensor stores an index twice, sketches can be
converted, and all summands have the declared shape. -/
def Obj.Good [CommRing K] (env : Env K) (sh : List ℕ) : Obj K → Prop
  | .atom (.leaf X) => X.Valid ∧ X.Distinct ∧ X.shape = sh
  | .atom (.sketched S) => S.shape = sh ∧ ∃ Y, S.toTT env = .ok Y ∧ Y.Valid ∧ Y.shape = sh
  | .sum s ts => s = sh ∧ Obj.GoodL env sh ts

/-- The same for all members of a list. -/
def Obj.GoodL [CommRing K] (env : Env K) (sh : List ℕ) : List (Obj K) → Prop
  | [] => True
  | t :: ts => t.Good env sh ∧ Obj.GoodL env sh ts
end

mutual
/-- No lazy sum without summands, at any depth (`TensorSum([])` raises; only an explicit `shape` makes one). -/
def Obj.NoEmpty [CommRing K] : Obj K → Prop
  | .atom _ => True
  | .sum _ ts => ts ≠ [] ∧ Obj.NoEmptyL ts

/-- The same for all members of a list. -/
def Obj.NoEmptyL [CommRing K] : List (Obj K) → Prop
  | [] => True
  | t :: ts => t.NoEmpty ∧ Obj.NoEmptyL ts
end

mutual
/-- The sketches in an object, from left to right. -/
def Obj.sketches [Zero K] : Obj K → List (Sketched K)
  | .atom (.leaf _) => []
  | .atom (.sketched S) => [S]
  | .sum _ ts => Obj.sketchesL ts

/-- The sketches in a list of objects. -/
def Obj.sketchesL [Zero K] : List (Obj K) → List (Sketched K)
  | [] => []
  | t :: ts => t.sketches ++ Obj.sketchesL ts
end

mutual
/-- The basic tensors in an object, from left to right (sketches are left out). -/
def Obj.leaves [Zero K] : Obj K → List (Leaf K)
  | .atom (.leaf X) => [X]
  | .atom (.sketched _) => []
  | .sum _ ts => Obj.leavesL ts

/-- The basic tensors in a list of objects. -/
def Obj.leavesL [Zero K] : List (Obj K) → List (Leaf K)
  | [] => []
  | t :: ts => t.leaves ++ Obj.leavesL ts
end

/-- The object with all nested sums flattened (for objects without sketches). -/
def Obj.flatten [CommRing K] : Obj K → Tensor K
  | .atom (.leaf X) => .leaf X
  | X => .sum ⟨X.shape, X.leaves⟩

/-- A tensor of `Model/Tensor.lean` as an object. -/
def Tensor.toObj [Zero K] : Tensor K → Obj K
  | .leaf X => .atom (.leaf X)
  | .sum X => .sum X.shape (X.tensors.map fun t => .atom (.leaf t))

/-- `S.T` converts to the transpose of the tensor train `S` converts to (C47: so it is for the results of
`stream_sketch`). -/
def Sketched.Transposes [CommRing K] (env : Env K) (S : Sketched K) : Prop :=
  ∃ Y, S.toTT env = .ok Y ∧ S.T.toTT env = .ok Y.T ∧ S.T.shape = S.shape.reverse

/-- A tensor train, given as such or by a sketch, has positive sizes and ranks. -/
def Obj.PosTT (env : Env ℝ) : Obj ℝ → Prop
  | .atom (.leaf (.tt X)) => X.Pos
  | .atom (.sketched S) => ∀ Y, S.toTT env = .ok Y → Y.Pos
  | _ => True

/-- The array of the entries of an object of shape `sh`. -/
def Obj.array [CommRing K] (env : Env K) (sh : List ℕ) (X : Obj K) : ND K := ND.ofFn sh fun i => X.entry env i

/-- Two calls return the same value, or neither returns. -/
def SameOk {α : Type*} (x y : Except PyErr α) : Prop := ∀ a, x = .ok a ↔ y = .ok a

end TTS
