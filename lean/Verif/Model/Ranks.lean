import Verif.ND

/-!
# Model of rank handling (`tt_sketch/utils.py` 121-175)
-/

namespace TTS

/-- A `TTRank` argument (`utils.py` 17): an `int` or a tuple of `int`s.  Simplification: ranks are
natural numbers (python would accept negative integers as well). -/
inductive RankArg
  | int (r : ℕ)
  | seq (rs : List ℕ)
  deriving DecidableEq, Repr

/-- `utils.py` 134-137: first loop of `trim_ranks`, `min(r, dim_left, dim_right)` at each bond. -/
def trimInit (dims ranks : List ℕ) : List ℕ :=
  ranks.zipIdx.map fun (r, i) => min r (min (dims.take (i + 1)).prod (dims.drop (i + 1)).prod)

/-- `utils.py` 143-148: loop body for mode `i` of size `d`; returns the list and `changed`. -/
def trimStep (st : List ℕ × Bool) (di : ℕ × ℕ) : List ℕ × Bool :=
  let d := di.1
  let i := di.2
  let st :=
    if st.1.getD (i + 1) 0 > st.1.getD i 0 * d then
      (st.1.set (i + 1) (st.1.getD i 0 * d), true) else st
  if st.1.getD i 0 > d * st.1.getD (i + 1) 0 then
    (st.1.set i (d * st.1.getD (i + 1) 0), true) else st

/-- `utils.py` 141-148: one pass over all modes, starting with `changed = False`. -/
def trimSweep (dims rs : List ℕ) : List ℕ × Bool :=
  dims.zipIdx.foldl trimStep (rs, false)

/-- `utils.py` 140-150: `for _ in range(fuel): ...; if not changed: break`. -/
def trimLoop (dims : List ℕ) : ℕ → List ℕ → List ℕ
  | 0, rs => rs
  | fuel + 1, rs =>
    let st := trimSweep dims rs
    if st.2 then trimLoop dims fuel st.1 else st.1

/-- `utils.py` 121-152: `trim_ranks(dims, ranks)`. -/
def trimRanks (dims ranks : List ℕ) : List ℕ :=
  let rs := trimInit dims ranks
  let rs := 1 :: rs ++ [1]
  let rs := trimLoop dims 100 rs
  (rs.drop 1).dropLast

/-- `utils.py` 155-175: `process_tt_rank(rank, shape, trim)`. -/
def processTTRank (rank : RankArg) (shape : List ℕ) (trim : Bool) : Except PyErr (List ℕ) :=
  let rt := match rank with
    | .int r => List.replicate (shape.length - 1) r
    | .seq rs => rs
  if rt.length + 1 ≠ shape.length then .error .valueError
  else if trim then .ok (trimRanks shape rt) else .ok rt

end TTS
