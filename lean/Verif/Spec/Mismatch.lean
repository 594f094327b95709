import Verif.ND

/-! # Broadcasting of indices -/

namespace TTS

/-- Index of an array of shape `s` that stands at index `i` when axes of size 1 are repeated as often as necessary. -/
def clip (s i : List ℕ) : List ℕ := List.zipWith (fun n k => if n = 1 then 0 else k) s i

/-- Two shapes with the same number of axes that numpy can broadcast against each other. -/
def Compatible (s t : List ℕ) : Prop := List.Forall₂ (fun n m => n = m ∨ n = 1 ∨ m = 1) s t

/-- The common shape of two compatible shapes. -/
def common (s t : List ℕ) : List ℕ := List.zipWith (fun n m => if n = 1 then m else n) s t

/-- A shape `s` that numpy can broadcast to the shape `t`: aligned at the last axis, every size is 1 or that of `t`. -/
def BroadcastsTo (s t : List ℕ) : Prop :=
  s.length ≤ t.length ∧ List.Forall₂ (fun n m => n = m ∨ n = 1) s (t.drop (t.length - s.length))

end TTS
