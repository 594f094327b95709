import Verif.Model.DRM

/-!
# Model of the sketching algorithms

`tt_sketch/sketching_methods/*.py`, `tt_sketch/sketch_dispatch.py`, `tt_sketch/sketch_container.py`
and `tt_sketch/sketch.py`.
-/

namespace TTS

open Finset

variable {K : Type*}

end TTS

/-- Sequencing of python statements: stop at the first exception. -/
def Except.andThen {ε α β : Type*} (x : Except ε α) (f : α → Except ε β) : Except ε β :=
  match x with
  | .error e => .error e
  | .ok a => f a

namespace TTS

/-! ### Omega and Psi for one tensor -/

/-- `A * v` for a matrix `A` and a vector `v` of length `A.shape[1]` (numpy broadcasting along
rows). -/
def ND.mulCols [MulZeroClass K] (A : ND K) (v : List K) : ND K :=
  ND.ofFn [A.dim 0, A.dim 1] fun ij => A.get ij * v.getD (ij.getD 1 0) 0

/-- `sketch_omega_*`: `sparse_sketch.py` 39-46, `tensor_train_sketch.py` 8-11, `cp_sketch.py` 6-9,
`dense_sketch.py` 7-16, `tucker_sketch.py` 9-19. -/
def omegaLeaf [CommSemiring K] (X : Leaf K) (mu : ℕ) (l r : ND K) : ND K :=
  match X with
  | .sparse X => (l.mulCols (X.entries.map Prod.snd)).matmul r.matT
  | .tt _ => l.matT.matmul r
  | .cp _ => l.matT.matmul r
  | .dense X => (l.matmul (X.matricize (List.range (mu + 1)) true)).matmul r.matT
  | .tucker X => (l.matT.matmul (X.core.matricize (List.range (mu + 1)) true)).matmul r

/-- `mask = inds[mu] == j` (`sparse_sketch.py` 18), as the list of selected positions. -/
def Sparse.mask (X : Sparse K) (mu j : ℕ) : List ℕ :=
  (List.range X.nnz).filter fun e => (X.row mu).getD e 0 = j

/-- `sparse_sketch.py` 8-36: `_Psi_core_slice`; entry `(a, b)` of the slice `j`.  The products of
masked arrays (`(L[:, mask] * entries[mask]) @ R[:, mask].T` etc.) are written as sums over the
masked positions. -/
def psiSparseSlice [CommSemiring K] (X : Sparse K) (mu j : ℕ) (l r : Option (ND K)) :
    Except PyErr (ℕ → ℕ → K) :=
  let v := X.entries.map Prod.snd
  if mu = 0 then
    match r with
    | none => .error .valueError
    | some r => .ok fun _ b => ((X.mask mu j).map fun e => v.getD e 0 * r.get [b, e]).sum
  else if mu = X.shape.length - 1 then
    match l with
    | none => .error .valueError
    | some l => .ok fun a _ => ((X.mask mu j).map fun e => l.get [a, e] * v.getD e 0).sum
  else
    match l, r with
    | some l, some r =>
      .ok fun a b => ((X.mask mu j).map fun e => l.get [a, e] * v.getD e 0 * r.get [b, e]).sum
    | _, _ => .error .valueError

/-- `sparse_sketch.py` 49-69: `sketch_psi_sparse`: `Psi[:, j, :]` is set for every `j`. -/
def psiSparse [CommSemiring K] (X : Sparse K) (mu : ℕ) (psiShape : List ℕ) (l r : Option (ND K)) :
    Except PyErr (ND K) :=
  match (List.range (psiShape.getD 1 0)).mapM fun j => psiSparseSlice X mu j l r with
  | .error e => .error e
  | .ok fs => .ok <| ND.ofFn psiShape fun i =>
      (fs.getD (i.getD 1 0) fun _ _ => 0) (i.getD 0 0) (i.getD 2 0)

/-- `tensor_train_sketch.py` 14-35: `sketch_psi_tt` for the core `C`, also used for the reshaped
Tucker core (`tucker_sketch.py` 32-43).  `np.einsum(.., None)` raises `ValueError`. -/
def psiCore [CommSemiring K] (C : ND K) : Option (ND K) → Option (ND K) → Except PyErr (ND K)
  | none, none => .error .valueError
  | none, some r => .ok (ND.es_ijk_kl_ijl C r)
  | some l, none => .ok (ND.es_ij_jkl_ikl l.matT C)
  | some l, some r => .ok (ND.es_ij_jkl_lm_ikm l.matT C r)

/-- `cp_sketch.py` 12-36: `sketch_psi_cp` for the factor `C`. -/
def psiCP [CommSemiring K] (C : ND K) : Option (ND K) → Option (ND K) → Except PyErr (ND K)
  | none, none => .error .valueError
  | none, some r =>
    let P := ND.es_ji_il_jl C r
    .ok (P.reshape (1 :: P.shape))
  | some l, none =>
    let P := ND.es_il_kl_ik l.matT C
    .ok (P.reshape (P.shape ++ [1]))
  | some l, some r => .ok (ND.es_ij_kj_jm_ikm l.matT C r)

/-- `dense_sketch.py` 19-52: `sketch_psi_dense`.  (`None.T` raises `AttributeError`.) -/
def psiDense [CommSemiring K] (X : ND K) (mu : ℕ) :
    Option (ND K) → Option (ND K) → Except PyErr (ND K)
  | none, none => .error .attributeError
  | none, some r =>
    let P := (X.matricize [0] true).matmul r.matT
    .ok (P.reshape (1 :: P.shape))
  | some l, none =>
    let P := l.matmul (X.matricize [X.ndim - 1] true).matT
    .ok (P.reshape (P.shape ++ [1]))
  | some l, some r =>
    let X3 := X.matricize (List.range (mu + 1)) false
    let X3 := X3.reshape [(X3.shape.take mu).prod, X3.dim mu, X3.dim (mu + 1)]
    .ok (ND.es_ij_jkl_ml_ikm l X3 r)

/-- `tucker_sketch.py` 22-46: `sketch_psi_tucker`. -/
def psiTucker [CommSemiring K] (X : Tucker K) (mu : ℕ) (l r : Option (ND K)) :
    Except PyErr (ND K) :=
  let leftDim := (l.map fun l => l.dim 0).getD 1
  let rightDim := (r.map fun r => r.dim 0).getD 1
  match X.core.reshape? [leftDim, X.rank.getD mu 0, rightDim] with
  | .error e => .error e
  | .ok C =>
    match psiCore C l r with
    | .error e => .error e
    | .ok P => .ok (ND.es_ijk_jl_ilk P (X.factors.getD mu (ND.zeros [])))

/-- `PSI_METHODS` (`sketch_dispatch.py` 76-82). -/
def psiLeaf [CommSemiring K] (X : Leaf K) (mu : ℕ) (psiShape : List ℕ) (l r : Option (ND K)) :
    Except PyErr (ND K) :=
  match X with
  | .sparse X => psiSparse X mu psiShape l r
  | .tt X => psiCore (X.cores.getD mu (ND.zeros [])) l r
  | .cp X => psiCP (X.cores.getD mu (ND.zeros [])) l r
  | .dense X => psiDense X mu l r
  | .tucker X => psiTucker X mu l r

/-! ### Lazy sums -/

/-- `A += B`: numpy raises `ValueError` when the shapes differ.  Simplification: broadcasting of
size-1 axes of `B` is rejected as well. -/
def ND.iadd [AddZeroClass K] (A B : ND K) : Except PyErr (ND K) :=
  if A.shape = B.shape then .ok (A.add B) else .error .valueError

/-- `sketch_dispatch.py` 142-157 and the call of the returned method: for every summand (one for a
tensor that is not a lazy sum) its list of contractions.  Layout: the code yields, for every `mu`,
the tuple over the summands; here it is the list over the summands of the lists over `mu`. -/
def DRM.contr [CommRing K] (env : Env K) (D : DRM K) (X : Tensor K) :
    Except PyErr (List (List (ND K))) :=
  match X with
  | .leaf X => (D.sketch env X).map fun l => [l]
  | .sum X =>
    if X.tensors.all (fun t => D.data.supports t) then X.tensors.mapM (D.sketch env)
    else .error .attributeError

/-- `OMEGA_METHODS[type(tensor)](...)`; for sums `sketch_dispatch.py` 85-105. -/
def omegaT [CommSemiring K] (X : Tensor K) (mu : ℕ) (omegaShape : List ℕ) (ls rs : List (ND K)) :
    Except PyErr (ND K) :=
  match X with
  | .leaf X => .ok (omegaLeaf X mu (ls.headD (ND.zeros [])) (rs.headD (ND.zeros [])))
  | .sum X => (X.tensors.zip (ls.zip rs)).foldlM
      (fun om t => om.iadd (omegaLeaf t.1 mu t.2.1 t.2.2)) (ND.zeros omegaShape)

/-- `PSI_METHODS[type(tensor)](...)`; for sums `sketch_dispatch.py` 111-136. -/
def psiT [CommSemiring K] (X : Tensor K) (mu : ℕ) (psiShape : List ℕ)
    (ls rs : List (Option (ND K))) : Except PyErr (ND K) :=
  match X with
  | .leaf X => psiLeaf X mu psiShape (ls.headD none) (rs.headD none)
  | .sum X => (X.tensors.zip (ls.zip rs)).foldlM
      (fun psi t => match psiLeaf t.1 mu psiShape t.2.1 t.2.2 with
        | .error e => .error e
        | .ok P => psi.iadd P) (ND.zeros psiShape)

/-! ### Containers -/

/-- `sketch_container.py` 11-42: `SketchContainer`. -/
structure Container (K : Type*) [Zero K] where
  psi : List (ND K)
  omega : List (ND K)
  shape : List ℕ
  leftRank : List ℕ
  rightRank : List ℕ

namespace Container

/-- `sketch_container.py` 22-42: `SketchContainer(Psi_cores, Omega_mats)`, shapes inferred. -/
def ofCores [Zero K] (psi omega : List (ND K)) : Container K :=
  { psi := psi, omega := omega
    shape := psi.map fun P => P.dim 1
    leftRank := psi.tail.map fun P => P.dim 0
    rightRank := psi.dropLast.map fun P => P.dim 2 }

/-- `sketch_container.py` 44-59: `zero`. -/
def zero [Zero K] (shape leftRank rightRank : List ℕ) : Container K :=
  { psi := List.zipWith (fun a b => ND.zeros [a.1, a.2, b]) ((1 :: leftRank).zip shape)
      (rightRank ++ [1])
    omega := List.zipWith (fun r1 r2 => ND.zeros [r1, r2]) leftRank rightRank
    shape := shape, leftRank := leftRank, rightRank := rightRank }

/-- `sketch_container.py` 61-69: `__add__`. -/
def add [AddZeroClass K] (A B : Container K) : Container K :=
  ofCores (List.zipWith ND.add A.psi B.psi) (List.zipWith ND.add A.omega B.omega)

/-- `sketch_container.py` 71-75: `T`. -/
def T [Zero K] (A : Container K) : Container K :=
  ofCores (A.psi.reverse.map fun P => P.transpose [2, 1, 0]) (A.omega.reverse.map ND.matT)

/-- `sketch_container.py` 77-80: `__mul__`.  The comprehension `[Psi * other for Psi in
new_Psi_cores]` reads the very variable it is assigned to, so python raises
`UnboundLocalError`. -/
def mul [Zero K] (_ : Container K) (_ : K) : Except PyErr (Container K) :=
  .error .unboundLocalError

/-- `sketch_container.py` 82-83: `__neg__`. -/
def neg [CommRing K] (A : Container K) : Except PyErr (Container K) := A.mul (-1)

/-- `sketch_container.py` 85-86: `__sub__`. -/
def sub [CommRing K] (A B : Container K) : Except PyErr (Container K) :=
  match B.neg with
  | .error e => .error e
  | .ok nB => .ok (A.add nB)

/-- `sketch_container.py` 88-89: `__truediv__` (`1 / 0` raises `ZeroDivisionError`). -/
def div [Field K] [DecidableEq K] (A : Container K) (c : K) : Except PyErr (Container K) :=
  if c = 0 then .error .zeroDivisionError else A.mul (1 / c)

end Container

/-! ### The general sketch -/

/-- `utils.py` 98-102: `right_mul_pinv`. -/
def rightMulPinv [Zero K] (env : Env K) (A B : ND K) : ND K := (env.lstsq B.matT A.matT).matT

/-- `utils.py` 105-109: `left_mul_pinv`. -/
def leftMulPinv [Zero K] (env : Env K) (A B : ND K) : ND K := env.lstsq A B

/-- `sketch_dispatch.py` 160-174: `orth_step`. -/
def orthStep [Zero K] (env : Env K) (Psi : ND K) (Omega : Option (ND K)) : Except PyErr (ND K) :=
  let final := match Omega with
    | none => Psi.dim 2
    | some O => O.dim 0
  let M := Psi.reshape [Psi.dim 0 * Psi.dim 1, Psi.dim 2]
  let M := match Omega with
    | none => M
    | some O => rightMulPinv env M O
  (env.qr M).1.reshape? [Psi.dim 0, Psi.dim 1, final]

/-- `sketch_dispatch.py` 177-193: the DRM inside `OrthogTTDRM`, with the cores added so far. -/
def orthDRM [Zero K] (rank shape : List ℕ) (cores : List (ND K)) : DRM K :=
  { rank := List.zipWith (fun r1 r2 => r2 - r1) (List.replicate (shape.length - 1) 0) rank
    rankMin := List.replicate (shape.length - 1) 0
    rankMax := rank, trueRank := rank
    shape := shape, transpose := false, seed := 0
    data := .tt cores }

/-- `sketch_dispatch.py` 196-199. -/
inductive Method
  | streaming
  | orthogonal
  | hmt
  deriving DecidableEq

/-- Contraction number `mu` of every summand. -/
def pick [Zero K] (c : List (List (ND K))) (mu : ℕ) : List (ND K) := c.map fun l => l.getD mu (ND.zeros [])

/-- Number of summands (1 for a tensor that is not a lazy sum). -/
def Tensor.parts [Zero K] (X : Tensor K) : ℕ := X.summands.length

/-- `sketch_dispatch.py` 226-240: the Omega matrices. -/
def omegas [CommSemiring K] (X : Tensor K) (lrank rrank : List ℕ) (lc rc : List (List (ND K))) :
    Except PyErr (List (ND K)) :=
  (List.range (X.shape.length - 1)).mapM fun mu =>
    omegaT X mu [lrank.getD mu 0, rrank.getD mu 0] (pick lc mu) (pick rc mu)

/-- `sketch_dispatch.py` 248-268 for one `mu`, given the left contractions to use (`[]` for
`mu = 0`, where the code uses `None`). -/
def psiAt [CommSemiring K] (X : Tensor K) (lrank rrank : List ℕ) (rc : List (List (ND K))) (mu : ℕ)
    (left : List (ND K)) : Except PyErr (ND K) :=
  let d := X.shape.length
  let ls := if 0 < mu then left.map some else List.replicate X.parts none
  let r1 := if 0 < mu then lrank.getD (mu - 1) 0 else 1
  let rs := if mu < d - 1 then (pick rc mu).map some else List.replicate X.parts none
  let r2 := if mu < d - 1 then rrank.getD mu 0 else 1
  psiT X mu [r1, X.shape.getD mu 0, r2] ls rs

/-- `sketch_dispatch.py` 246-274, method `streaming`. -/
def psisStream [CommSemiring K] (X : Tensor K) (lrank rrank : List ℕ)
    (lc rc : List (List (ND K))) : Except PyErr (List (ND K)) :=
  (List.range X.shape.length).mapM fun mu => psiAt X lrank rrank rc mu (pick lc (mu - 1))

/-- `sketch_dispatch.py` 248-274 for one `mu` of the methods `orthogonal` (with the Omega
matrices) and `hmt` (without). `next(left_psi_drm)` is the contraction with the last core added;
the generators hold the same list of cores, so it is the last element of the contractions with the
cores added so far. -/
def psiOrthStep [CommRing K] (env : Env K) (X : Tensor K) (lrank rrank : List ℕ)
    (om : Option (List (ND K))) (rc : List (List (ND K))) (cores : List (ND K)) (mu : ℕ) :
    Except PyErr (List (ND K)) :=
  match (if 0 < mu then (orthDRM lrank X.shape cores).contr env X else .ok []) with
  | .error e => .error e
  | .ok lc =>
    match psiAt X lrank rrank rc mu (pick lc (mu - 1)) with
    | .error e => .error e
    | .ok Psi =>
      if mu < X.shape.length - 1 then
        match orthStep env Psi (om.map fun l => l.getD mu (ND.zeros [])) with
        | .error e => .error e
        | .ok Q => .ok (cores ++ [Q])
      else .ok (cores ++ [Psi])

/-- `sketch_dispatch.py` 246-274, methods `orthogonal` and `hmt`. -/
def psisOrth [CommRing K] (env : Env K) (X : Tensor K) (lrank rrank : List ℕ)
    (om : Option (List (ND K))) (rc : List (List (ND K))) : Except PyErr (List (ND K)) :=
  (List.range X.shape.length).foldlM (psiOrthStep env X lrank rrank om rc) []

/-- `sketch_dispatch.py` 202-275: `general_sketch`. -/
def generalSketch [CommRing K] (env : Env K) (X : Tensor K) (left : Option (DRM K)) (right : DRM K)
    (m : Method) : Except PyErr (Container K) :=
  match m with
  | .streaming =>
    match left with
    | none => .error .valueError
    | some left =>
      (left.contr env X).andThen fun lc =>
      (right.contr env X).andThen fun rc =>
      (omegas X left.rank right.rank.reverse lc rc).andThen fun om =>
      (psisStream X left.rank right.rank.reverse lc rc).andThen fun psi =>
      .ok (Container.ofCores psi om)
  | .orthogonal =>
    match left with
    | none => .error .valueError
    | some left =>
      (left.contr env X).andThen fun lc =>
      (right.contr env X).andThen fun rc =>
      (omegas X left.rank right.rank.reverse lc rc).andThen fun om =>
      (psisOrth env X left.rank right.rank.reverse (some om) rc).andThen fun psi =>
      .ok (Container.ofCores psi om)
  | .hmt =>
      (right.contr env X).andThen fun rc =>
      let lrank := match left with
        | none => right.T.rank
        | some left => left.rank
      (psisOrth env X lrank right.rank.reverse none rc).andThen fun psi =>
      .ok (Container.ofCores psi [])

/-! ### The user-level functions of `sketch.py` -/

/-- `bool(np.all(np.array(a) < np.array(b)))` for ints and tuples, with numpy's broadcasting: a
number or a 1-tuple is compared with every entry, tuples of different lengths raise `ValueError`. -/
def ranksLess (a b : RankArg) : Except PyErr Bool :=
  match a, b with
  | .int x, .int y => .ok (decide (x < y))
  | .int x, .seq ys => .ok (ys.all fun y => decide (x < y))
  | .seq xs, .int y => .ok (xs.all fun x => decide (x < y))
  | .seq xs, .seq ys =>
    if xs.length = ys.length then .ok ((xs.zip ys).all fun p => decide (p.1 < p.2))
    else if xs.length = 1 then .ok (ys.all fun y => decide (xs.getD 0 0 < y))
    else if ys.length = 1 then .ok (xs.all fun x => decide (x < ys.getD 0 0))
    else .error .valueError

/-- `sketch.py` 232-244: `SketchedTensorTrain`. -/
structure Sketched (K : Type*) [Zero K] where
  sketch : Container K
  left : DRM K
  right : DRM K

/-- Keyword arguments of the sketching functions. -/
structure SketchKw (K : Type*) [Zero K] where
  seed : Option ℕ := none
  leftType : Option DRMKind := none
  rightType : Option DRMKind := none
  left : Option (DRM K) := none
  right : Option (DRM K) := none

/-- `sketch.py` 108-123, 182-200: the left DRM, made (class: given type, else the other given type,
else `TensorTrainDRM`; ranks trimmed if `trim`) or checked. -/
def leftDRM [CommSemiring K] (env : Env K) (shape : List ℕ) (rank : RankArg) (trim : Bool)
    (seed : ℕ) (kw : SketchKw K) : Except PyErr (DRM K) :=
  match kw.left with
  | none =>
    match processTTRank rank shape trim with
    | .error e => .error e
    | .ok r => DRM.new env (kw.leftType.getD (kw.rightType.getD .tensorTrain)) (.seq r) shape false
        (some seed)
  | some D => if RankArg.seq D.rank = rank then .ok D else .error .valueError

/-- `sketch.py` 125-141, 202-219: the right DRM.  `left_drm_type` has been replaced by its default
(line 113/187) if no left DRM was passed. -/
def rightDRM [CommSemiring K] (env : Env K) (shape : List ℕ) (rank : RankArg) (trim : Bool)
    (seed : ℕ) (kw : SketchKw K) : Except PyErr (DRM K) :=
  match kw.right with
  | none =>
    match processTTRank rank shape trim with
    | .error e => .error e
    | .ok r => DRM.new env (kw.rightType.getD (kw.leftType.getD .tensorTrain)) (.seq r) shape true
        (some (((seed : ℤ) + env.strHash shape.length) % 2 ^ 32).toNat)
  | some D => if RankArg.seq D.rank.reverse = rank then .ok D else .error .valueError

/-- `sketch.py` 154-229: `stream_sketch`.  (With `return_drm` the DRMs are returned as well; they
are part of the result here.) -/
def streamSketch [CommRing K] (env : Env K) (X : Tensor K) (lrank rrank : RankArg)
    (kw : SketchKw K := {}) : Except PyErr (Sketched K) :=
  (ranksLess rrank lrank).andThen fun leftBigger =>
  (ranksLess lrank rrank).andThen fun rightBigger =>
  if leftBigger = false ∧ rightBigger = false then .error .valueError
  else
    let seed := kw.seed.getD (env.freshSeed % 2 ^ 32)
    (leftDRM env X.shape lrank rightBigger seed kw).andThen fun l =>
    (rightDRM env X.shape rrank leftBigger seed kw).andThen fun r =>
    (generalSketch env X (some l) r .streaming).andThen fun s =>
    .ok ⟨s, l, r⟩

/-- `sketch.py` 81-151: `orthogonal_sketch` (the DRMs are returned too, as with `return_drm`). -/
def orthogonalSketch [CommRing K] (env : Env K) (X : Tensor K) (lrank rrank : RankArg)
    (kw : SketchKw K := {}) : Except PyErr (TT K × DRM K × DRM K) :=
  (ranksLess lrank rrank).andThen fun rightBigger =>
  if rightBigger = false then .error .valueError
  else
    let seed := kw.seed.getD (env.freshSeed % 2 ^ 32)
    (leftDRM env X.shape lrank true seed kw).andThen fun l =>
    (rightDRM env X.shape rrank false seed kw).andThen fun r =>
    (generalSketch env X (some l) r .orthogonal).andThen fun s =>
    .ok (⟨s.psi⟩, l, r)

/-- `sketch.py` 60-71: the DRM of `hmt_sketch`, made or checked. -/
def hmtDRM [CommSemiring K] (env : Env K) (shape : List ℕ) (rank : RankArg) (seed : ℕ)
    (drmType : Option DRMKind) : Option (DRM K) → Except PyErr (DRM K)
  | none =>
    match processTTRank rank shape true with
    | .error e => .error e
    | .ok r => DRM.new env (drmType.getD .tensorTrain) (.seq r) shape true (some seed)
  | some D => if RankArg.seq D.rank.reverse = rank then .ok D else .error .valueError

/-- `sketch.py` 44-78: `hmt_sketch`.  With `return_drm=True` the last statement reads the
undefined name `right_drm` (line 76). -/
def hmtSketch [CommRing K] (env : Env K) (X : Tensor K) (rank : RankArg)
    (seed : Option ℕ := none) (drmType : Option DRMKind := none) (drm : Option (DRM K) := none)
    (returnDrm : Bool := false) : Except PyErr (TT K) :=
  (hmtDRM env X.shape rank (seed.getD (env.freshSeed % 2 ^ 32)) drmType drm).andThen fun D =>
  (generalSketch env X none D .hmt).andThen fun s =>
  if returnDrm then .error .nameError else .ok ⟨s.psi⟩

/-! ### Reconstruction -/

/-- The argument `direction` of `C_cores`. -/
inductive Direction
  | auto
  | left
  | right
  | other
  deriving DecidableEq

/-- `sketch.py` 413-428: direction `right`. -/
def assembleRight [Zero K] (env : Env K) (s : Container K) : Except PyErr (List (ND K)) :=
  match (s.psi.dropLast.zip s.omega).mapM (fun po =>
      (rightMulPinv env (po.1.reshape [po.1.dim 0 * po.1.dim 1, po.1.dim 2]) po.2).reshape?
        [po.1.dim 0, po.1.dim 1, po.2.dim 0]) with
  | .error e => .error e
  | .ok cs => .ok (cs ++ [s.psi.getLastD (ND.zeros [])])

/-- `sketch.py` 429-443: direction `left`. -/
def assembleLeft [Zero K] (env : Env K) (s : Container K) : Except PyErr (List (ND K)) :=
  match (s.psi.tail.zip s.omega).mapM (fun po =>
      (leftMulPinv env po.2 (po.1.reshape [po.1.dim 0, po.1.dim 1 * po.1.dim 2])).reshape?
        [po.2.dim 1, po.1.dim 1, po.1.dim 2]) with
  | .error e => .error e
  | .ok cs => .ok (s.psi.headD (ND.zeros []) :: cs)

/-- `sketch.py` 400-443: `assemble_sketched_tt`. -/
def assemble [Zero K] (env : Env K) (s : Container K) : Direction → Except PyErr (List (ND K))
  | .auto =>
    if (s.leftRank.zip s.rightRank).all fun p => decide (p.1 > p.2) then assembleLeft env s
    else assembleRight env s
  | .left => assembleLeft env s
  | .right => assembleRight env s
  | .other => .error .valueError

namespace Sketched
variable [CommRing K]

/-- `sketch.py` 268-269: `shape`. -/
def shape (S : Sketched K) : List ℕ := S.sketch.shape

/-- `sketch.py` 246-248: `left_rank`. -/
def leftRank (S : Sketched K) : List ℕ := S.left.rank

/-- `sketch.py` 250-252: `right_rank`. -/
def rightRank (S : Sketched K) : List ℕ := S.right.rank.reverse

/-- `sketch.py` 271-272: `C_cores`. -/
def cCores (env : Env K) (S : Sketched K) (dir : Direction := .auto) : Except PyErr (List (ND K)) :=
  assemble env S.sketch dir

/-- `sketch.py` 279-280: `to_tt`. -/
def toTT (env : Env K) (S : Sketched K) : Except PyErr (TT K) := (S.cCores env).map TT.mk

/-- `sketch.py` 274-277: `T`. -/
def T (S : Sketched K) : Sketched K := ⟨S.sketch.T, S.right.T, S.left.T⟩

/-- `sketch.py` 292-301: `__add__`. -/
def add (env : Env K) (S : Sketched K) (Y : Tensor K) : Except PyErr (Sketched K) :=
  (streamSketch env Y (.seq S.leftRank) (.seq S.rightRank)
    { left := some S.left, right := some S.right }).andThen fun o =>
  .ok ⟨S.sketch.add o.sketch, S.left, S.right⟩

/-- `sketch.py` 355-358: `__mul__`. -/
def mul (S : Sketched K) (c : K) : Except PyErr (Sketched K) :=
  (S.sketch.mul c).andThen fun s => .ok ⟨s, S.left, S.right⟩

/-- `tensor.py` 118-119: `__neg__`, inherited. -/
def neg (S : Sketched K) : Except PyErr (Sketched K) := S.mul (-1)

end Sketched

/-- What a user may pass as a tensor: an instance of a class in the dispatch tables or a
`SketchedTensorTrain`, which is a `Tensor` too but in none of the tables (`MPO` is another such
class).  Simplification: lazy sums of such objects are left out. -/
inductive AnyTensor (K : Type*) [Zero K]
  | tensor (X : Tensor K)
  | sketched (S : Sketched K)

/-- attribute `shape` -/
def AnyTensor.shape [CommRing K] : AnyTensor K → List ℕ
  | .tensor X => X.shape
  | .sketched S => S.shape

/-- `sketch_dispatch.py` 202-275 for any argument: `get_sketch_method` raises `ValueError` for classes outside
the table (line 157). -/
def generalSketchAny [CommRing K] (env : Env K) (X : AnyTensor K) (left : Option (DRM K)) (right : DRM K)
    (m : Method) : Except PyErr (Container K) :=
  match X with
  | .tensor X => generalSketch env X left right m
  | .sketched _ => .error .valueError

/-- `sketch.py` 154-229: `stream_sketch` for any argument. -/
def streamSketchAny [CommRing K] (env : Env K) (X : AnyTensor K) (lrank rrank : RankArg)
    (kw : SketchKw K := {}) : Except PyErr (Sketched K) :=
  (ranksLess rrank lrank).andThen fun leftBigger =>
  (ranksLess lrank rrank).andThen fun rightBigger =>
  if leftBigger = false ∧ rightBigger = false then .error .valueError
  else
    let seed := kw.seed.getD (env.freshSeed % 2 ^ 32)
    (leftDRM env X.shape lrank rightBigger seed kw).andThen fun l =>
    (rightDRM env X.shape rrank leftBigger seed kw).andThen fun r =>
    (generalSketchAny env X (some l) r .streaming).andThen fun s =>
    .ok ⟨s, l, r⟩

/-- `sketch.py` 292-301: `__add__` for any right operand. -/
def Sketched.addAny [CommRing K] (env : Env K) (S : Sketched K) (Y : AnyTensor K) : Except PyErr (Sketched K) :=
  (streamSketchAny env Y (.seq S.leftRank) (.seq S.rightRank)
    { left := some S.left, right := some S.right }).andThen fun o =>
  .ok ⟨S.sketch.add o.sketch, S.left, S.right⟩

/-! ### Blocked sketches -/

/-- `A[a1:a2, :, b1:b2] = B` for order-3 arrays. numpy raises `ValueError` when the shapes differ;
simplification: broadcasting of size-1 axes is rejected as well. -/
def ND.setBlock3 [Zero K] (A : ND K) (a1 a2 b1 b2 : ℕ) (B : ND K) : Except PyErr (ND K) :=
  if B.shape = [min a2 (A.dim 0) - a1, A.dim 1, min b2 (A.dim 2) - b1] then
    .ok <| ND.ofFn A.shape fun i =>
      if a1 ≤ i.getD 0 0 ∧ i.getD 0 0 < a2 ∧ b1 ≤ i.getD 2 0 ∧ i.getD 2 0 < b2 then
        B.get [i.getD 0 0 - a1, i.getD 1 0, i.getD 2 0 - b1]
      else A.get i
  else .error .valueError

/-- `A[a1:a2, b1:b2] = B` for matrices (same remark). -/
def ND.setBlock2 [Zero K] (A : ND K) (a1 a2 b1 b2 : ℕ) (B : ND K) : Except PyErr (ND K) :=
  if B.shape = [min a2 (A.dim 0) - a1, min b2 (A.dim 1) - b1] then
    .ok <| ND.ofFn A.shape fun i =>
      if a1 ≤ i.getD 0 0 ∧ i.getD 0 0 < a2 ∧ b1 ≤ i.getD 1 0 ∧ i.getD 1 0 < b2 then
        B.get [i.getD 0 0 - a1, i.getD 1 0 - b1]
      else A.get i
  else .error .valueError

/-- `BlockedSketch`: an association list in insertion order (`sketch.py` 41). -/
abbrev Blocks (K : Type*) [Zero K] := List ((ℕ × ℕ) × Container K)

/-- `sketch.py` 374-381: the sliced DRMs. -/
def sliceAll [CommSemiring K] (env : Env K) (D : DRM K) (cuts : List (List ℕ)) :
    Except PyErr (List (DRM K)) :=
  (cuts.dropLast.zip cuts.tail).mapM fun ab => D.slice env ab.1 ab.2

/-- `sketch.py` 364-397: `_blocked_stream_sketch_components`. -/
def blockedComponents [CommRing K] (env : Env K) (X : Tensor K) (left right : DRM K)
    (lcuts rcuts : List (List ℕ)) (excluded : List (ℕ × ℕ)) : Except PyErr (Blocks K) :=
  (sliceAll env left lcuts).andThen fun ls =>
  (sliceAll env right rcuts).andThen fun rs =>
  let todo := (ls.zipIdx.flatMap fun li => rs.zipIdx.map fun rj => (li, rj)).filter
    fun p => (p.1.2, p.2.2) ∉ excluded
  todo.mapM fun p =>
    (generalSketch env X (some p.1.1) p.2.1 .streaming).andThen fun s => .ok ((p.1.2, p.2.2), s)

/-- `sketch.py` 457-473: writing one block into the big sketch. -/
def writeBlock [Zero K] (lcuts rcuts : List (List ℕ)) (s : Container K)
    (b : (ℕ × ℕ) × Container K) : Except PyErr (Container K) :=
  let l1 := 0 :: lcuts.getD b.1.1 []
  let l2 := 1 :: lcuts.getD (b.1.1 + 1) []
  let r1 := rcuts.getD b.1.2 [] ++ [0]
  let r2 := rcuts.getD (b.1.2 + 1) [] ++ [1]
  (b.2.psi.zipIdx.foldlM (fun (cur : List (ND K)) Pm =>
      ((cur.getD Pm.2 (ND.zeros [])).setBlock3 (l1.getD Pm.2 0) (l2.getD Pm.2 0)
        (r1.getD Pm.2 0) (r2.getD Pm.2 0) Pm.1).andThen fun A =>
      .ok (cur.set Pm.2 A)) s.psi).andThen fun psi =>
  (b.2.omega.zipIdx.foldlM (fun (cur : List (ND K)) Om =>
      ((cur.getD Om.2 (ND.zeros [])).setBlock2 (l1.getD (Om.2 + 1) 0) (l2.getD (Om.2 + 1) 0)
        (r1.getD Om.2 0) (r2.getD Om.2 0) Om.1).andThen fun A =>
      .ok (cur.set Om.2 A)) s.omega).andThen fun om =>
  .ok { s with psi := psi, omega := om }

/-- `sketch.py` 446-473: `_assemble_blocked_stream_sketches`. -/
def assembleBlocked [Zero K] (lcuts rcuts : List (List ℕ)) (shape : List ℕ) (blocks : Blocks K) :
    Except PyErr (Container K) :=
  blocks.foldlM (writeBlock lcuts rcuts)
    (Container.zero shape (lcuts.getLastD []) (rcuts.getLastD []))

/-- `sketch.py` 493-525: `blocked_stream_sketch` (all DRM classes are sliceable). -/
def blockedStreamSketch [CommRing K] (env : Env K) (X : Tensor K) (left right : DRM K)
    (lcuts rcuts : List (List ℕ)) : Except PyErr (Container K) :=
  (blockedComponents env X left right lcuts rcuts []).andThen fun blocks =>
  assembleBlocked lcuts rcuts X.shape blocks

/-- `sketch.py` 303-353: `increase_rank`. -/
def Sketched.increaseRank [CommRing K] (env : Env K) (S : Sketched K) (X : Tensor K)
    (newLeft newRight : RankArg) : Except PyErr (Sketched K) :=
  (processTTRank newLeft X.shape false).andThen fun nl =>
  (processTTRank newRight X.shape false).andThen fun nr =>
  let zeros := List.replicate (X.shape.length - 1) 0
  let lcuts := [zeros, S.left.rank, nl]
  let rcuts := [zeros, S.right.rank.reverse, nr]
  (S.left.increaseRank env nl).andThen fun l =>
  (S.right.increaseRank env nr).andThen fun r =>
  (blockedComponents env X l r lcuts rcuts [(0, 0)]).andThen fun blocks =>
  (assembleBlocked lcuts rcuts X.shape (blocks ++ [((0, 0), S.sketch)])).andThen fun s =>
  .ok ⟨s, l, r⟩

end TTS
