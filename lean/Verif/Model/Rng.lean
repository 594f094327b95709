import Mathlib.Data.Nat.Notation
import Mathlib.Data.List.Basic

/-!
# Model of `MultithreadedRNG` (`tt_sketch/utils.py` 178-227)

The worker threads are modelled as small-step processes; a schedule is an arbitrary list of worker
numbers saying who runs next.  One step writes one number.  The generators are parameters:
`gens i k` is draw number `k` of the generator spawned for thread `i`.
-/

namespace TTS.Rng

/-- `utils.py` 199: `step = np.ceil(n / threads)` (exact; the code divides doubles, which agrees
below `2^53`). -/
def stepSize (n threads : ℕ) : ℕ := (n + threads - 1) / threads

/-- First position of the slice of worker `i` (line 212: `i * self.step`). -/
def first (n threads i : ℕ) : ℕ := i * stepSize n threads

/-- End of the slice of worker `i` (line 213), clipped to the array as python slices are
(line 204: `out[first:last]`). -/
def last (n threads i : ℕ) : ℕ := min ((i + 1) * stepSize n threads) n

/-- State of the fill: array contents, draws made by each worker, log of written positions. -/
structure State (K : Type*) where
  values : ℕ → K
  drawn : ℕ → ℕ
  log : List ℕ

/-- `utils.py` 198: `np.empty(n)`, arbitrary initial contents `garbage`. -/
def init {K : Type*} (garbage : ℕ → K) : State K := ⟨garbage, fun _ => 0, []⟩

/-- `utils.py` 203-204: worker `i` writes its next number (`standard_normal(out=out[first:last])`
fills the slice in order), or does nothing when its slice is full. -/
def step {K : Type*} (n threads : ℕ) (gens : ℕ → ℕ → K) (st : State K) (i : ℕ) : State K :=
  let pos := first n threads i + st.drawn i
  if i < threads ∧ pos < last n threads i then
    { values := fun p => if p = pos then gens i (st.drawn i) else st.values p
      drawn := fun w => if w = i then st.drawn w + 1 else st.drawn w
      log := pos :: st.log }
  else st

/-- `utils.py` 202-217: the fill under a schedule. -/
def run {K : Type*} (n threads : ℕ) (gens : ℕ → ℕ → K) (garbage : ℕ → K) (sched : List ℕ) :
    State K :=
  sched.foldl (step n threads gens) (init garbage)

/-- `utils.py` 216: `concurrent.futures.wait(futures)` returns when all tasks are done. -/
def Finished {K : Type*} (n threads : ℕ) (st : State K) : Prop :=
  ∀ i < threads, last n threads i ≤ first n threads i + st.drawn i

end TTS.Rng
