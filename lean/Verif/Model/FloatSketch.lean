import Verif.Model.Float
import Verif.Model.Sketch
import Verif.Spec.FloatSketch

/-!
# The streaming sketch in floating point arithmetic

The programs of `Model/DRM.lean` and `Model/Sketch.lean` once more, with every numpy operation
carried out in floating point arithmetic; relations, as in `Model/Float.lean`.  The data of the DRMs
(matrices, cores, generated entries) are given numbers here: how they were drawn and scaled does not
matter.
-/

namespace TTS
open ND

/-- `ttScan` (`tensor_train_drm.py` 60-145) with a nondeterministic step. -/
def flScan (step : ℕ → ND ℝ → ND ℝ → ND ℝ → Prop) : ℕ → ND ℝ → List (ND ℝ) → List (ND ℝ) → Prop
  | _, P, [], out => out = [P]
  | mu, P, C :: Cs, out => ∃ P' rest, step mu P C P' ∧ flScan step (mu + 1) P' Cs rest ∧ out = P :: rest

/-- `ttRun` (`tensor_train_drm.py` 60-145) with nondeterministic steps. -/
def flRun (first : ND ℝ → ND ℝ → Prop) (step : ℕ → ND ℝ → ND ℝ → ND ℝ → Prop) :
    List (ND ℝ) → List (ND ℝ) → Prop
  | [], out => out = []
  | C :: Cs, out => ∃ P, first C P ∧ flScan step 1 P Cs out

/-- `tensor_train_drm.py` 60-69: `sketch_sparse`, before slicing. -/
def flSketchSparse (u : ℝ) (cores : List (ND ℝ)) (X : Sparse ℝ) : List (ND ℝ) → Prop :=
  flRun (fun C P => P = (C.takeAxis1 (X.row 0)).reshape (C.takeAxis1 (X.row 0)).shape.tail)
    (fun mu P C => FlEinsum u [([.i, .j, .k], C.takeAxis1 (X.row mu)), ([.j, .i], P)] [.j, .k]) cores

/-- `tensor_train_drm.py` 71-88: `sketch_tt`, before slicing. -/
def flSketchTT (u : ℝ) (cores : List (ND ℝ)) (X : TT ℝ) : List (ND ℝ) → Prop :=
  flRun (fun C => FlEinsum u [([.i, .j, .k], X.cores.getD 0 (ND.zeros [])), ([.i, .j, .l], C)] [.k, .l])
    (fun mu P C => FlEinsum u [([.i, .j], P), ([.i, .k, .l], X.cores.getD mu (ND.zeros [])),
      ([.j, .k, .m], C)] [.l, .m]) cores

/-- `tensor_train_drm.py` 90-107: `sketch_cp`, before slicing. -/
def flSketchCP (u : ℝ) (cores : List (ND ℝ)) (X : CP ℝ) : List (ND ℝ) → Prop :=
  flRun (fun C => FlEinsum u [([.i, .j], X.cores.getD 0 (ND.zeros [])), ([.l, .i, .k], C)] [.j, .k])
    (fun mu P C => FlEinsum u [([.i, .j], P), ([.k, .i], X.cores.getD mu (ND.zeros [])),
      ([.j, .k, .l], C)] [.i, .l]) cores

/-- `tensor_train_drm.py` 109-122: `sketch_dense`. -/
def flSketchDense (u : ℝ) (cores : List (ND ℝ)) : List (ND ℝ) → Prop :=
  flRun (fun C P => P = C.reshape [C.dim 0 * C.dim 1, C.dim 2])
    (fun _ P C P' => ∃ N, FlEinsum u [([.i, .j], P), ([.j, .k, .l], C)] [.i, .k, .l] N ∧
      P' = N.reshape [N.dim 0 * N.dim 1, N.dim 2]) cores

/-- `tensor_train_drm.py` 124-145: `sketch_tucker`. -/
def flSketchTucker (u : ℝ) (cores : List (ND ℝ)) (rank0 : ℕ) (X : Tucker ℝ) : List (ND ℝ) → Prop :=
  flRun (fun C P => ∃ N, FlEinsum u [([.i, .j, .k], C),
      ([.j, .l], (X.factors.getD 0 (ND.zeros [])).matT)] [.i, .l, .k] N ∧
      P = N.reshape [X.rank.getD 0 0, rank0])
    (fun mu P C P' => ∃ cr N, FlEinsum u [([.j, .k, .l], C),
        ([.k, .m], (X.factors.getD mu (ND.zeros [])).matT)] [.j, .m, .l] cr ∧
      FlEinsum u [([.i, .j], P), ([.j, .m, .l], cr)] [.i, .m, .l] N ∧
      P' = N.reshape [N.dim 0 * N.dim 1, N.dim 2]) cores

/-- `tensor.py` 390-397: `partial_dense("lr")`, all yielded arrays. -/
def TT.FlPartialDenseLR (u : ℝ) (X : TT ℝ) (out : List (ND ℝ)) : Prop :=
  match X.cores with
  | [] => out = []
  | C :: Cs => flScan (fun _ P C P' => ∃ N, FlEinsum u [([.i, .j], P), ([.j, .k, .l], C)] [.i, .k, .l] N ∧
      P' = N.reshape [N.dim 0 * N.dim 1, N.dim 2]) 1 (C.reshape [C.dim 0 * C.dim 1, C.dim 2])
      Cs.dropLast out

/-- The bodies of the sketch methods (`dense_gaussian_drm.py` 59-80, `sparse_gaussian_drm.py` 29-44,
`sparse_sign_drm.py` 34-51, `tensor_train_drm.py` 60-145).  Selecting columns of stored or
generated matrices is exact. -/
def DRM.FlSketchOwn (u : ℝ) (env : Env ℝ) (D : DRM ℝ) (X : Leaf ℝ) (out : List (ND ℝ)) : Prop :=
  match D.data, X with
  | .dense mats, .tt X => ∃ pcs ms, X.FlPartialDenseLR u pcs ∧
      List.Forall₂ (fun (p : ND ℝ × ND ℝ) m => FlMatmul u p.1 p.2 m) (mats.zip pcs) ms ∧
      out = ms.map ND.matT
  | .tt cores, .sparse X => ∃ l, flSketchSparse u cores X l ∧ out = (D.sliceCols l).map ND.matT
  | .tt cores, .tt X => ∃ l, flSketchTT u cores X l ∧ out = D.sliceCols l
  | .tt cores, .cp X => ∃ l, flSketchCP u cores X l ∧ out = D.sliceCols l
  | .tt cores, .dense _ => ∃ l, flSketchDense u cores l ∧ out = l.map ND.matT
  | .tt cores, .tucker X => tuckerReshapeOk cores (D.rank.getD 0 0) X ∧
      flSketchTucker u cores (D.rank.getD 0 0) X out
  | _, _ => D.sketchOwn env X = .ok out

/-- `drm_base.py` 122-145: the sketch methods with their decorator `handle_transpose`. -/
def DRM.FlSketch (u : ℝ) (env : Env ℝ) (D : DRM ℝ) (X : Leaf ℝ) (out : List (ND ℝ)) : Prop :=
  D.data.supports X = true ∧ D.shape = X.shape ∧
  if D.transpose then ∃ l, D.FlSketchOwn u env X.T l ∧ out = l.reverse else D.FlSketchOwn u env X out

/-- `A * v` for a matrix `A` and a vector `v` (broadcasting along rows). -/
def FlMulCols (u : ℝ) (A : ND ℝ) (v : List ℝ) (C : ND ℝ) : Prop :=
  FlND u 1 C (A.mulCols v) (A.abs.mulCols (v.map (|·|)))

/-- `sketch_omega_*`: `sparse_sketch.py` 39-46, `tensor_train_sketch.py` 8-11, `cp_sketch.py` 6-9,
`dense_sketch.py` 7-16, `tucker_sketch.py` 9-19. -/
def FlOmegaLeaf (u : ℝ) (X : Leaf ℝ) (mu : ℕ) (l r C : ND ℝ) : Prop :=
  match X with
  | .sparse X => ∃ lv, FlMulCols u l (X.entries.map Prod.snd) lv ∧ FlMatmul u lv r.matT C
  | .tt _ => FlMatmul u l.matT r C
  | .cp _ => FlMatmul u l.matT r C
  | .dense X => ∃ A, FlMatmul u l (X.matricize (List.range (mu + 1)) true) A ∧ FlMatmul u A r.matT C
  | .tucker X => ∃ A, FlMatmul u l.matT (X.core.matricize (List.range (mu + 1)) true) A ∧
      FlMatmul u A r C

/-- `sparse_sketch.py` 8-36, 49-69: `sketch_psi_sparse`; every entry is a sum of at most `nnz` products
of at most three numbers. -/
def FlPsiSparse (u : ℝ) (X : Sparse ℝ) (mu : ℕ) (psiShape : List ℕ) (l r : Option (ND ℝ)) (C : ND ℝ) :
    Prop :=
  ∃ E M, psiSparse X mu psiShape l r = .ok E ∧
    psiSparse X.abs mu psiShape (l.map ND.abs) (r.map ND.abs) = .ok M ∧ FlND u (X.nnz + 1) C E M

/-- `tensor_train_sketch.py` 14-35: `sketch_psi_tt`, and `tucker_sketch.py` 32-43. -/
def FlPsiCore (u : ℝ) (A : ND ℝ) : Option (ND ℝ) → Option (ND ℝ) → ND ℝ → Prop
  | none, none, _ => False
  | none, some r, P => FlEinsum u [([.i, .j, .k], A), ([.k, .l], r)] [.i, .j, .l] P
  | some l, none, P => FlEinsum u [([.i, .j], l.matT), ([.j, .k, .l], A)] [.i, .k, .l] P
  | some l, some r, P =>
    FlEinsum u [([.i, .j], l.matT), ([.j, .k, .l], A), ([.l, .m], r)] [.i, .k, .m] P

/-- `cp_sketch.py` 12-36: `sketch_psi_cp`. -/
def FlPsiCP (u : ℝ) (A : ND ℝ) : Option (ND ℝ) → Option (ND ℝ) → ND ℝ → Prop
  | none, none, _ => False
  | none, some r, P => ∃ Q, FlEinsum u [([.j, .i], A), ([.i, .l], r)] [.j, .l] Q ∧
      P = Q.reshape (1 :: Q.shape)
  | some l, none, P => ∃ Q, FlEinsum u [([.i, .l], l.matT), ([.k, .l], A)] [.i, .k] Q ∧
      P = Q.reshape (Q.shape ++ [1])
  | some l, some r, P => FlEinsum u [([.i, .j], l.matT), ([.k, .j], A), ([.j, .m], r)] [.i, .k, .m] P

/-- `dense_sketch.py` 19-52: `sketch_psi_dense`. -/
def FlPsiDense (u : ℝ) (X : ND ℝ) (mu : ℕ) : Option (ND ℝ) → Option (ND ℝ) → ND ℝ → Prop
  | none, none, _ => False
  | none, some r, P => ∃ Q, FlMatmul u (X.matricize [0] true) r.matT Q ∧ P = Q.reshape (1 :: Q.shape)
  | some l, none, P => ∃ Q, FlMatmul u l (X.matricize [X.ndim - 1] true).matT Q ∧
      P = Q.reshape (Q.shape ++ [1])
  | some l, some r, P =>
    let X3 := X.matricize (List.range (mu + 1)) false
    let X3 := X3.reshape [(X3.shape.take mu).prod, X3.dim mu, X3.dim (mu + 1)]
    FlEinsum u [([.i, .j], l), ([.j, .k, .l], X3), ([.m, .l], r)] [.i, .k, .m] P

/-- `tucker_sketch.py` 22-46: `sketch_psi_tucker`. -/
def FlPsiTucker (u : ℝ) (X : Tucker ℝ) (mu : ℕ) (l r : Option (ND ℝ)) (P : ND ℝ) : Prop :=
  ∃ A Q, X.core.reshape? [(l.map fun l => l.dim 0).getD 1, X.rank.getD mu 0,
      (r.map fun r => r.dim 0).getD 1] = .ok A ∧
    FlPsiCore u A l r Q ∧
    FlEinsum u [([.i, .j, .k], Q), ([.j, .l], X.factors.getD mu (ND.zeros []))] [.i, .l, .k] P

/-- `PSI_METHODS` (`sketch_dispatch.py` 76-82). -/
def FlPsiLeaf (u : ℝ) (X : Leaf ℝ) (mu : ℕ) (psiShape : List ℕ) (l r : Option (ND ℝ)) (P : ND ℝ) :
    Prop :=
  match X with
  | .sparse X => FlPsiSparse u X mu psiShape l r P
  | .tt X => FlPsiCore u (X.cores.getD mu (ND.zeros [])) l r P
  | .cp X => FlPsiCP u (X.cores.getD mu (ND.zeros [])) l r P
  | .dense X => FlPsiDense u X mu l r P
  | .tucker X => FlPsiTucker u X mu l r P

/-- `sketch_dispatch.py` 142-157: the contractions of every summand. -/
def DRM.FlContr (u : ℝ) (env : Env ℝ) (D : DRM ℝ) (X : Tensor ℝ) (c : List (List (ND ℝ))) : Prop :=
  List.Forall₂ (fun t l => D.FlSketch u env t l) X.summands c

/-- `OMEGA_METHODS[type(tensor)](...)`; for sums `sketch_dispatch.py` 85-105. -/
def FlOmegaT (u : ℝ) (X : Tensor ℝ) (mu : ℕ) (omegaShape : List ℕ) (ls rs : List (ND ℝ)) (C : ND ℝ) :
    Prop :=
  match X with
  | .leaf X => FlOmegaLeaf u X mu (ls.headD (ND.zeros [])) (rs.headD (ND.zeros [])) C
  | .sum X => flFold (fun om (t : Leaf ℝ × ND ℝ × ND ℝ) om' => ∃ P, FlOmegaLeaf u t.1 mu t.2.1 t.2.2 P ∧
      om.shape = P.shape ∧ FlAdd u om P om') (ND.zeros omegaShape) (X.tensors.zip (ls.zip rs)) C

/-- `PSI_METHODS[type(tensor)](...)`; for sums `sketch_dispatch.py` 111-136. -/
def FlPsiT (u : ℝ) (X : Tensor ℝ) (mu : ℕ) (psiShape : List ℕ) (ls rs : List (Option (ND ℝ)))
    (C : ND ℝ) : Prop :=
  match X with
  | .leaf X => FlPsiLeaf u X mu psiShape (ls.headD none) (rs.headD none) C
  | .sum X => flFold (fun psi (t : Leaf ℝ × Option (ND ℝ) × Option (ND ℝ)) psi' =>
      ∃ P, FlPsiLeaf u t.1 mu psiShape t.2.1 t.2.2 P ∧ psi.shape = P.shape ∧ FlAdd u psi P psi')
      (ND.zeros psiShape) (X.tensors.zip (ls.zip rs)) C

/-- `sketch_dispatch.py` 248-268 for one `mu`, method `streaming`. -/
def FlPsiAt (u : ℝ) (X : Tensor ℝ) (lrank rrank : List ℕ) (lc rc : List (List (ND ℝ))) (mu : ℕ)
    (P : ND ℝ) : Prop :=
  let d := X.shape.length
  let ls := if 0 < mu then (pick lc (mu - 1)).map some else List.replicate X.parts none
  let r1 := if 0 < mu then lrank.getD (mu - 1) 0 else 1
  let rs := if mu < d - 1 then (pick rc mu).map some else List.replicate X.parts none
  let r2 := if mu < d - 1 then rrank.getD mu 0 else 1
  FlPsiT u X mu [r1, X.shape.getD mu 0, r2] ls rs P

/-- `sketch_dispatch.py` 202-275: `general_sketch`, method `streaming`. -/
def FlGeneralSketch (u : ℝ) (env : Env ℝ) (X : Tensor ℝ) (left right : DRM ℝ) (S : Container ℝ) :
    Prop :=
  ∃ lc rc om psi, left.FlContr u env X lc ∧ right.FlContr u env X rc ∧
    List.Forall₂ (fun mu O => FlOmegaT u X mu [left.rank.getD mu 0, right.rank.reverse.getD mu 0]
      (pick lc mu) (pick rc mu) O) (List.range (X.shape.length - 1)) om ∧
    List.Forall₂ (fun mu P => FlPsiAt u X left.rank right.rank.reverse lc rc mu P)
      (List.range X.shape.length) psi ∧
    S = Container.ofCores psi om

/-- `sketch_container.py` 61-69: `__add__`. -/
def FlContainerAdd (u : ℝ) (A B C : Container ℝ) : Prop :=
  ∃ psi om, List.Forall₂ (fun (p : ND ℝ × ND ℝ) P => FlAdd u p.1 p.2 P) (A.psi.zip B.psi) psi ∧
    List.Forall₂ (fun (p : ND ℝ × ND ℝ) P => FlAdd u p.1 p.2 P) (A.omega.zip B.omega) om ∧
    C = Container.ofCores psi om

/-- `sketch.py` 292-301: a history of updates `sketch = sketch + tensor` with the DRMs of the sketch
(`stream_sketch` with given DRMs, then the sum of the containers). -/
def FlHistory (u : ℝ) (env : Env ℝ) (left right : DRM ℝ) (A : Container ℝ) (Ys : List (Tensor ℝ))
    (B : Container ℝ) : Prop :=
  flFold (fun A Y A' => ∃ S, FlGeneralSketch u env Y left right S ∧ FlContainerAdd u A S A') A Ys B

end TTS
