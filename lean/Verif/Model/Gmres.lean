import Verif.Model.MPO
import Verif.Model.Sketch

/-!
# Model of `round_tt_sum` and `tt_sum_gmres` (`tt_sketch/tt_gmres.py` 257-432)

Real numbers for floats, exact arithmetic.  Where a division by zero makes an `inf` or `nan` that the code goes on
computing with, the model stops with `PyErr.nonFinite`.
-/

namespace TTS

open Finset

/-- `tt_gmres.py` 257: the values of the argument `method` (`unknown`: any other value). -/
inductive RoundMode
  | exact
  | pairwise
  | sketch
  | orthSketch
  | none
  | unknown
  deriving DecidableEq

/-- What `round_tt_sum` returns: a tensor train, or for `method=None` the unchanged sum. -/
inductive Rounded
  | tt (X : TT ℝ)
  | sum (ts : List (TT ℝ))

/-- The `TensorSum` with the given tensor trains as summands (`tensor.py` 618-622). -/
def ttSum (ts : List (TT ℝ)) : Tensor ℝ := .sum ⟨(ts.headD ⟨[]⟩).shape, ts.map Leaf.tt⟩

/-- `tt_gmres.py` 288, 295: `tuple(ceil(r * oversample_factor) for r in left_rank)`.  Simplification: the factor is
not negative. -/
noncomputable def oversample (f : ℝ) (rs : List ℕ) : List ℕ := rs.map fun (r : ℕ) => ⌈(r : ℝ) * f⌉₊

/-- `tt_gmres.py` 277-280: adding up, for method `exact`.  `summands[0]` of an empty list is an `IndexError`. -/
def addAll : List (TT ℝ) → Except PyErr (TT ℝ)
  | [] => .error .indexError
  | t :: ts => .ok (ts.foldl TT.add t)

/-- `tt_gmres.py` 283-285: method `pairwise`. -/
noncomputable def addRounding (la : LinAlg) (maxRank : RankArg) (eps : Option ℝ) :
    List (TT ℝ) → Except PyErr (TT ℝ)
  | [] => .error .indexError
  | t :: ts => ts.foldlM (fun acc t => (acc.add t).round la eps (some maxRank) false) t

/-- `tt_gmres.py` 260-305: `round_tt_sum(TensorSum(ts), max_rank, eps, method, oversample_factor)`. -/
noncomputable def roundTTSum (env : Env ℝ) (la : LinAlg) (ts : List (TT ℝ)) (maxRank : RankArg) (eps : Option ℝ)
    (method : RoundMode) (factor : ℝ) : Except PyErr Rounded :=
  match method with
  | .exact =>
    (addAll ts).andThen fun tt =>
    (tt.round la eps (some maxRank) false).map Rounded.tt
  | .pairwise => (addRounding la maxRank eps ts).map Rounded.tt
  | .sketch =>
    (processTTRank maxRank (ttSum ts).shape true).andThen fun left =>
    (streamSketch env (ttSum ts) (.seq left) (.seq (oversample factor left))).andThen fun S =>
    (S.toTT env).map Rounded.tt
  | .orthSketch =>
    (processTTRank maxRank (ttSum ts).shape true).andThen fun left =>
    (orthogonalSketch env (ttSum ts) (.seq left) (.seq (oversample factor left))).map fun o => Rounded.tt o.1
  | .none => .ok (.sum ts)
  | .unknown => .error .valueError

/-! ### GMRES -/

/-- One call of `round_tt_sum` during a run (recorded by the model only): summands, `eps`, result. -/
structure RoundCall where
  summands : List (TT ℝ)
  eps : Option ℝ
  result : TT ℝ

/-- `tt_gmres.py` 366-370, 398, 405-409, 426-427: the dictionary `history` (without the entries for `save_basis`, which
are in `GmresOut`). -/
structure History where
  wNorm : List ℝ
  rank : List (List ℕ)
  residualNorm : List PyFloat
  stepTime : List ℝ
  stepTimeRes : List ℝ
  delta : List ℝ
  finalRoundTime : ℝ
  totalTime : ℝ

/-- The variables of `tt_sum_gmres` that the loop changes.  `finite` tells whether the last element of `nu_list` was
divided by a nonzero number, `iters` counts the iterations done, `calls` records the rounding calls. -/
structure GmresSt where
  nu : List (TT ℝ)
  finite : Prop
  H : ND ℝ
  res : ℝ
  y : Option (List ℝ)
  iters : ℕ
  hist : History
  calls : List RoundCall

/-- What stays fixed during the loop: rounding (call number, summands, `eps`), the preconditioned operator
`apply_A_pr`, the readings of `perf_counter`, `symmetric`, `tolerance`, `beta`, `b_norm`. -/
structure GmresCfg where
  la : LinAlg2
  rnd : ℕ → List (TT ℝ) → Option ℝ → Except PyErr (TT ℝ)
  ap : TT ℝ → Except PyErr (List (TT ℝ))
  clock : ℕ → ℝ
  symmetric : Bool
  tol : ℝ
  beta : ℝ
  bNorm : ℝ

/-- `residual_norm / b_norm < tolerance` (`tt_gmres.py` 411) for a quotient of nonnegative numbers; comparisons with
`nan` are false. -/
def PyFloat.lt (f : PyFloat) (t : ℝ) : Prop :=
  match f with
  | .val x => x < t
  | .inf => False
  | .nan => False

/-- `tt_gmres.py` 384: `min_j`. -/
def minJ (symmetric : Bool) (j : ℕ) : ℕ := if symmetric then max 0 (j - 2) else 0

/-- `tt_gmres.py` 385-386: the inner products written to column `j` of `H_matrix`. -/
def hColumn (H : ND ℝ) (w : TT ℝ) (nu : List (TT ℝ)) (m j : ℕ) : ND ℝ :=
  (List.range' m (j + 1 - m)).foldl (fun H i => H.setEntry [i, j] (w.dot (nu.getD i ⟨[]⟩))) H

/-- `tt_gmres.py` 389-392: the summands of `w_rounded - TensorSum(nu_list[min_j:j+1]) * H_matrix[min_j:j+1, j]`. -/
def gramSchmidt (H : ND ℝ) (w : TT ℝ) (nu : List (TT ℝ)) (m j : ℕ) : List (TT ℝ) :=
  w :: List.zipWith (fun v i => TT.mul (TT.mul v (H.get [i, j])) (-1)) ((nu.take (j + 1)).drop m)
    (List.range' m (j + 1 - m))

open Classical in
/-- `tt_gmres.py` 373-412: iteration `j`; the second component tells whether the loop is left by `break`. -/
noncomputable def gmresStep (c : GmresCfg) (j : ℕ) (st : GmresSt) : Except PyErr (GmresSt × Bool) :=
  if ¬ st.finite ∨ st.res = 0 then .error .nonFinite
  else
    let delta := c.tol / (st.res / c.beta)
    (c.ap (st.nu.getLastD ⟨[]⟩)).andThen fun wSum =>
    (c.rnd (2 * j + 1) wSum (some delta)).andThen fun w =>
    let m := minJ c.symmetric j
    let H := hColumn st.H w st.nu m j
    let wSum' := gramSchmidt H w st.nu m j
    (c.rnd (2 * j + 2) wSum' (some delta)).andThen fun w' =>
    (w'.norm c.la.toLinAlg).andThen fun h =>
    let H := H.setEntry [j + 1, j] h
    let sol := c.la.lstsq ((H.rows 0 (j + 2)).cols 0 (j + 1)) (c.beta :: List.replicate (j + 1) 0)
    match sol.2 with
    | [res] => .ok
      ({ nu := st.nu ++ [w'.mul (1 / h)]
         finite := h ≠ 0
         H := H
         res := res
         y := some sol.1
         iters := j + 1
         hist := { st.hist with
           stepTime := st.hist.stepTime ++ [c.clock (3 * j + 3) - c.clock (3 * j + 2)]
           stepTimeRes := st.hist.stepTimeRes ++ [c.clock (3 * j + 4) - c.clock (3 * j + 2)]
           residualNorm := st.hist.residualNorm ++ [(PyFloat.val (√ res)).div c.bNorm]
           rank := st.hist.rank ++ [w'.rank]
           wNorm := st.hist.wNorm ++ [h]
           delta := st.hist.delta ++ [delta] }
         calls := st.calls ++ [⟨wSum, some delta, w⟩, ⟨wSum', some delta, w'⟩] },
       decide (((PyFloat.val res).div c.bNorm).lt c.tol))
    | _ => .error .valueError

/-- `tt_gmres.py` 372-412: `for j in range(maxiter)`, the number of remaining iterations first. -/
noncomputable def gmresLoop (c : GmresCfg) : ℕ → ℕ → GmresSt → Except PyErr GmresSt
  | 0, _, st => .ok st
  | fuel + 1, j, st =>
    (gmresStep c j st).andThen fun p => if p.2 then .ok p.1 else gmresLoop c fuel (j + 1) p.1

/-- The arguments of `tt_sum_gmres` (`tt_gmres.py` 308-322).  `save_basis` and `verbose` are left out: the basis is
always part of the modelled result, log messages are not modelled. -/
structure GmresArgs where
  A : LinMapSum
  b : TT ℝ
  maxRank : RankArg
  precond : Option Precond := none
  finalRoundRank : Option RankArg := none
  x0 : Option (TT ℝ) := none
  tol : ℝ := 1 / 10 ^ 6
  maxiter : ℕ := 100
  symmetric : Bool := false
  method : RoundMode := .pairwise
  methodFinal : RoundMode := .none

/-- Result and history, with the basis returned for `save_basis` (`H_matrix`, `nu_list`, `y`), and `beta`, `b_norm`
and the rounding calls, which the code does not return. -/
structure GmresOut where
  x : TT ℝ
  hist : History
  H : ND ℝ
  nu : List (TT ℝ)
  y : List ℝ
  beta : ℝ
  bNorm : ℝ
  calls : List RoundCall

/-- `residual_rounded.rank` (`tt_gmres.py` 368) does not exist for a `TensorSum`, the result for `method=None`;
everything before works for a `TensorSum` as well. -/
def Rounded.asTT : Rounded → Except PyErr (TT ℝ)
  | .tt X => .ok X
  | .sum _ => .error .attributeError

/-- `tt_gmres.py` 347-351: `apply_A_pr`. -/
def applyPr (la : LinAlg2) (A : LinMapSum) (P : Option Precond) (x : TT ℝ) : Except PyErr (List (TT ℝ)) :=
  (A.call la [x]).andThen fun ys =>
  match P with
  | none => .ok ys
  | some P => ys.mapM (P.backward la)

/-- `tt_gmres.py` 353: `b_pr`. -/
def precondRhs (la : LinAlg2) (P : Option Precond) (b : TT ℝ) : Except PyErr (TT ℝ) :=
  match P with
  | none => .ok b
  | some P => P.backward la b

/-- `tt_gmres.py` 342-345: the initial guess, by default the zero train with ranks one. -/
def initialGuess (A : LinMapSum) : Option (TT ℝ) → Except PyErr (TT ℝ)
  | some x => .ok x
  | none => TT.zero A.inShape (.int 1)

/-- `tt_gmres.py` 308-432: `tt_sum_gmres`.  Random numbers drawn by the sketching methods differ between calls:
rounding call number `k` uses `env k`. -/
noncomputable def gmres (env : ℕ → Env ℝ) (la : LinAlg2) (clock : ℕ → ℝ) (a : GmresArgs) : Except PyErr GmresOut :=
  let finalRank := a.finalRoundRank.getD a.maxRank
  let methodFinal := if a.methodFinal = .none then a.method else a.methodFinal
  if a.A.outShape ≠ a.b.shape then .error .valueError
  else if ∃ x ∈ a.x0, x.shape ≠ a.A.inShape then .error .valueError
  else if a.A.outShape ≠ a.A.inShape then .error .valueError
  else
    (processTTRank a.maxRank a.A.inShape true).andThen fun maxRank =>
    (initialGuess a.A a.x0).andThen fun x0 =>
    (precondRhs la a.precond a.b).andThen fun bPr =>
    (a.b.norm la.toLinAlg).andThen fun bNorm =>
    (applyPr la a.A a.precond x0).andThen fun ax =>
    let residual := bPr :: ax.map fun t => TT.mul t (-1)
    let rnd := fun (k : ℕ) (ts : List (TT ℝ)) (eps : Option ℝ) =>
      (roundTTSum (env k) la.toLinAlg ts (.seq maxRank) eps a.method 2).andThen Rounded.asTT
    (rnd 0 residual none).andThen fun r0 =>
    (r0.norm la.toLinAlg).andThen fun beta =>
    let nu0 := r0.mul (1 / beta)
    (nu0.norm la.toLinAlg).andThen fun w0 =>
    let st : GmresSt :=
      { nu := [nu0], finite := beta ≠ 0, H := ND.zeros [a.maxiter + 1, a.maxiter], res := beta, y := none, iters := 0,
        hist := ⟨[w0], [r0.rank], [(PyFloat.val beta).div bNorm], [clock 1 - clock 0], [], [], 0, 0⟩
        calls := [⟨residual, none, r0⟩] }
    (gmresLoop ⟨la, rnd, applyPr la a.A a.precond, clock, a.symmetric, a.tol, beta, bNorm⟩ a.maxiter 0 st).andThen
      fun st =>
    match st.y with
    | none => .error .unboundLocalError
    | some y =>
      let y := y.take st.iters
      let nu := st.nu.take st.iters
      if nu.length ≠ y.length then .error .valueError
      else
        let result := x0 :: List.zipWith TT.mul nu y
        ((roundTTSum (env (2 * st.iters + 1)) la.toLinAlg result finalRank none methodFinal 2).andThen
          Rounded.asTT).andThen fun x =>
        .ok ⟨x, { st.hist with
            finalRoundTime := clock (3 * st.iters + 3) - clock (3 * st.iters + 2)
            totalTime := clock (3 * st.iters + 4) - clock 0 },
          st.H, nu, y, beta, bNorm, st.calls ++ [⟨result, none, x⟩]⟩

end TTS
