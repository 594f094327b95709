import Verif.Model.Mem

/-! # Sharing of memory between tensor objects -/

namespace TTS.Mem

variable {K : Type*} [CommSemiring K]

/-- The states that programs can produce. -/
def Reachable (h : Mem K) : Prop := ∃ p, Mem.empty.run p = .ok h

/-- tensor object `x` looks at buffer `b` -/
def Uses (h : Mem K) (x b : ℕ) : Prop :=
  (∃ l, (h.body x).list? = some l ∧ ∃ a ∈ h.list l, (h.arrObj a).buf = b) ∨
    ∃ a, (h.body x).arr? = some a ∧ (h.arrObj a).buf = b

/-- tensor objects `x` and `y` have the same list object of cores -/
def SameList (h : Mem K) (x y : ℕ) : Prop := ∃ l, (h.body x).list? = some l ∧ (h.body y).list? = some l

/-- Every mutation in the program is `y[i] = a` for a tensor object with `O y`, or `a[i] = v` for an array object with
`A a`. -/
def Mutates (O A : ℕ → Prop) (p : List (MStmt K)) : Prop :=
  ∀ s ∈ p, match s with
    | .setitem y _ _ => O y
    | .write a _ _ => A a
    | _ => True

/-- Every `y[i] = a` in the program replaces a core by an array of the same shape. -/
def KeepsShapes (h : Mem K) : List (MStmt K) → Prop
  | [] => True
  | s :: p =>
    (match s with
      | .setitem y i a => ∀ l, (h.body y).list? = some l → (h.arr a).shape = (h.arr ((h.list l).getD i 0)).shape
      | _ => True) ∧
    match h.step s with
    | .ok h' => h'.KeepsShapes p
    | .error _ => True

/-- The numbers of the objects make sense. -/
structure Ok (h : Mem K) : Prop where
  bufs : ∀ a < h.arrs.length, (h.arrObj a).buf < h.bufs.length
  lists : ∀ l < h.lists.length, ∀ a ∈ h.list l, a < h.arrs.length
  objs_list : ∀ x < h.objs.length, ∀ l, (h.body x).list? = some l → l < h.lists.length
  objs_arr : ∀ x < h.objs.length, ∀ a, (h.body x).arr? = some a → a < h.arrs.length

end TTS.Mem

namespace TTS.Mem

variable {K : Type*} [CommSemiring K]

/-- Statements that return a tensor with arrays of its own: `x * c` for dense, sparse and tensor-train tensors,
`x.add(y)`. -/
def Copies (h : Mem K) : MStmt K → Prop
  | .mul x _ =>
    match h.body x with
    | .dense _ => True
    | .sparse _ _ => True
    | .tt _ => True
    | _ => False
  | .add _ _ => True
  | _ => False

/-- Statements that change no existing array and no existing list. -/
def Pure : MStmt K → Prop
  | .setitem _ _ _ => False
  | .write _ _ _ => False
  | _ => True

/-- the tensor with core (or factor) `i` replaced by `A` -/
def setCore (i : ℕ) (A : ND K) : Leaf K → Leaf K
  | .tt X => .tt ⟨X.cores.set i A⟩
  | .cp X => .cp ⟨X.cores.set i A⟩
  | .tucker X => .tucker ⟨X.factors.set i A, X.core⟩
  | X => X

/-- the number of cores (or factors) that can be assigned -/
def numCores : Leaf K → ℕ
  | .tt X => X.cores.length
  | .cp X => X.cores.length
  | .tucker X => X.factors.length
  | _ => 0

end TTS.Mem
