import Verif.Model.Tensor

/-! # What integer indices select -/

namespace TTS

/-- The integers `c` select entry `i` of an array of shape `sh` in numpy: `i` is an index of the array and every integer
is the index itself or counts from the end. -/
def Selects : List ℕ → List ℤ → List ℕ → Prop
  | [], [], [] => True
  | n :: sh, z :: c, k :: i => k < n ∧ (z = k ∨ z = (k : ℤ) - n) ∧ Selects sh c i
  | _, _, _ => False

/-- The integers `c` are the index `i` of an array of shape `sh` (nothing negative). -/
def IsIndex (sh : List ℕ) (c : List ℤ) (i : List ℕ) : Prop := InR sh i ∧ c = i.map fun (k : ℕ) => (k : ℤ)

end TTS
