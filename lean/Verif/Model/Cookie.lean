import Verif.Model.MPO
import Verif.Model.Utils

/-!
# The cookie problem (`scripts/cookie_problem.py`)

A linear map written by a user of the library, and the parameter dependent problem it is made for.
-/

namespace TTS

open Finset

/-- `cookie_problem.py` 36-48: the attributes of a `CookieMap`. -/
structure CookieMap where
  A : ND ℝ
  mode : ℕ
  shape : List ℕ
  coeffs : List ℝ

namespace CookieMap

/-- `cookie_problem.py` 52: `np.einsum("ijk,jl->ilk", C, A)`.  (Simplified: sizes that do not match are not
reported.) -/
noncomputable def first (A C : ND ℝ) : ND ℝ :=
  ND.ofFn [C.dim 0, A.dim 1, C.dim 2] fun i =>
    ∑ j ∈ range (C.dim 1), C.get [i.getD 0 0, j, i.getD 2 0] * A.get [j, i.getD 1 0]

/-- `cookie_problem.py` 54-56: `np.einsum("ijk,j->ijk", C, coeffs)`.  (Simplified: sizes that do not match are not
reported.) -/
noncomputable def scaled (coeffs : List ℝ) (C : ND ℝ) : ND ℝ :=
  ND.ofFn C.shape fun i => C.get i * coeffs.getD (i.getD 1 0) 0

/-- `cookie_problem.py` 50-58: `cookie_call`.  Cores that do not exist are an `IndexError`. -/
noncomputable def call (m : CookieMap) (X : TT ℝ) : Except PyErr (TT ℝ) :=
  match X.cores[0]? with
  | none => .error .indexError
  | some C =>
    let cores := X.cores.set 0 (first m.A C)
    if m.mode ≠ 0 then
      match cores[m.mode]? with
      | none => .error .indexError
      | some D => .ok ⟨cores.set m.mode (scaled m.coeffs D)⟩
    else .ok ⟨cores⟩

/-- `cookie_problem.py` 36, 60: a `CookieMap` is a `TTLinearMap`. -/
noncomputable def linMap (m : CookieMap) : LinMap := .user ⟨m.shape, m.shape, m.call⟩

end CookieMap

/-- `np.mean` of a nonempty list -/
noncomputable def mean (l : List ℝ) : ℝ := l.sum / l.length

/-- The contents of a data file: `b.reshape(-1)` and the dense matrices of `A` (`cookie_problem.py` 70-71, 79). -/
structure CookieData where
  b : List ℝ
  A : List (ND ℝ)

/-- What `prepare_cookie_problem` returns. -/
structure CookieProblem where
  map : LinMapSum
  B : TT ℝ
  precond : Precond

/-- `cookie_problem.py` 80-83: the coefficients that belong to matrix `mu`. -/
noncomputable def cookieCoeffs (m mu : ℕ) (A : ND ℝ) : List ℝ :=
  if mu = 0 then List.replicate (A.dim 0) 1 else linspace 0 10 m

/-- `np.sum(l, axis=0)` of a nonempty list of arrays (`cookie_problem.py` 87), a `ValueError` if their shapes differ. -/
noncomputable def sumArrays : List (ND ℝ) → Except PyErr (ND ℝ)
  | [] => .error .indexError
  | A :: As => if ∀ B ∈ As, B.shape = A.shape then .ok (As.foldl ND.add A) else .error .valueError

/-- `cookie_problem.py` 63-110: `prepare_cookie_problem(num_coeffs, num_cookies)`.  `load` reads the two files of lines
32-33.  An empty list of matrices is an `IndexError` (line 73). -/
noncomputable def prepareCookie (la : LinAlg2) (load : String → CookieData) (m cookies : ℕ) :
    Except PyErr CookieProblem :=
  if cookies ≠ 4 ∧ cookies ≠ 9 then .error .valueError
  else
    let data := load (if cookies = 4 then "data/cookies_matrices_2x2.mat" else "data/cookies_matrices_3x3.mat")
    match data.A with
    | [] => .error .indexError
    | A0 :: _ =>
      let shape := A0.dim 0 :: List.replicate (data.A.length - 1) m
      let coeffs := data.A.zipIdx.map fun p => cookieCoeffs m p.2 p.1
      match sumArrays ((data.A.zip coeffs).map fun p => p.1.smul (mean p.2)) with
      | .error e => .error e
      | .ok Ap =>
        match LinMapSum.new (((data.A.zip coeffs).zipIdx).map fun p =>
            CookieMap.linMap ⟨p.1.1, p.2, shape, p.1.2⟩) with
        | .error e => .error e
        | .ok S => .ok ⟨S, ⟨ND.ofFn [1, data.b.length, 1] (fun i => data.b.getD (i.getD 1 0) 0) ::
            shape.tail.map fun n => ND.ofFn [1, n, 1] fun _ => 1⟩, Precond.new la Ap shape 0⟩

end TTS
