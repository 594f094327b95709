import Verif.Props.Ranks

/-! C03: the counterexample (kept apart because the kernel needs half a minute for it). -/

namespace TTS.Props

open TTS TTS.Spec

/-- C03 is false of the code for 103 modes: 100 sweeps are not enough, and the returned tuple
violates `r[i] <= n*r[i+1]`. -/
theorem C03_counterexample :
    ∃ dims rs : List ℕ, dims.length = 103 ∧ rs.length + 1 = dims.length ∧
      (∀ n ∈ dims, 0 < n) ∧ (∀ r ∈ rs, 0 < r) ∧ ¬ ConsistentRanks dims (trimRanks dims rs) := by
  refine ⟨2 :: List.replicate 101 1 ++ [2], List.replicate 101 2 ++ [1], by decide, by decide,
    by decide, by decide, ?_⟩
  rintro ⟨-, h⟩
  have h1 := (h 1 (by decide)).2
  revert h1
  decide +kernel

end TTS.Props
