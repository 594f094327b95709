import Verif.Model.Sketch
import Verif.Model.Numerics

/-!
# Model of tensor objects in general

The classes of `tt_sketch/tensor.py` together with `SketchedTensorTrain` (`tt_sketch/sketch.py`), which is a `Tensor`
too, and lazy sums whose summands are any of these or again lazy sums (the constructor `TensorSum(tensors)` takes any
list).  `Model/Tensor.lean` and `Model/Sketch.lean` are restricted to lazy sums of the five basic formats.
-/

namespace TTS

open Finset

variable {K : Type*}

/-- An object that is not a `TensorSum`: one of the five formats or a `SketchedTensorTrain`. -/
inductive Atom (K : Type*) [Zero K]
  | leaf (X : Leaf K)
  | sketched (S : Sketched K)

/-- Any tensor object; `sum` is a `TensorSum` with its attributes `shape` and `tensors` (`tensor.py` 612-622). -/
inductive Obj (K : Type*) [Zero K]
  | atom (A : Atom K)
  | sum (shape : List ℕ) (tensors : List (Obj K))

/-- attribute `shape` (`sketch.py` 268-269 for a sketch) -/
def Atom.shape [CommRing K] : Atom K → List ℕ
  | .leaf X => X.shape
  | .sketched S => S.shape

/-- attribute `shape` -/
def Obj.shape [CommRing K] : Obj K → List ℕ
  | .atom A => A.shape
  | .sum sh _ => sh

/-- `tensor.py` 618-622: `TensorSum(tensors)` without `shape`: `tensors[0].shape`. -/
def Obj.mkSum [CommRing K] (ts : List (Obj K)) : Except PyErr (Obj K) :=
  match ts with
  | [] => .error .indexError
  | t :: _ => .ok (.sum t.shape ts)

/-! ### size, to_numpy, T, scaling, addition -/

/-- `sketch.py` 258-262: `SketchedTensorTrain.size`. -/
def Sketched.size [CommRing K] (S : Sketched K) : ℕ :=
  (S.sketch.psi.map fun P => P.size).sum + (S.sketch.omega.map fun O => O.size).sum

/-- `size`; `none` for a `CPTensor`, where it is a bound method (see `Leaf.size?`). -/
def Atom.size? [CommRing K] : Atom K → Option ℕ
  | .leaf X => X.size?
  | .sketched S => some S.size

mutual
/-- `size`, for sums `tensor.py` 624-626. -/
def Obj.size [CommRing K] : Obj K → Except PyErr (Option ℕ)
  | .atom A => .ok A.size?
  | .sum _ ts => (Obj.sizeLoop 0 ts).map some

/-- The generator sum of `tensor.py` 626 from one summand on; adding a bound method raises `TypeError`. -/
def Obj.sizeLoop [CommRing K] : ℕ → List (Obj K) → Except PyErr ℕ
  | acc, [] => .ok acc
  | acc, t :: ts =>
    match t.size with
    | .error e => .error e
    | .ok none => .error .typeError
    | .ok (some n) => Obj.sizeLoop (acc + n) ts
end

/-- The tensor as one of the five formats: a sketch is converted with `to_tt` (`sketch.py` 279-280). -/
def Atom.asLeaf [CommRing K] (env : Env K) : Atom K → Except PyErr (Leaf K)
  | .leaf X => .ok X
  | .sketched S => (S.toTT env).map Leaf.tt

/-- `to_numpy` (`sketch.py` 282-283 for a sketch: `self.to_tt().to_numpy()`). -/
def Atom.toNumpy [CommRing K] (env : Env K) : Atom K → Except PyErr (ND K)
  | .leaf X => .ok X.toNumpy
  | .sketched S => (S.toTT env).map TT.toNumpy

mutual
/-- `to_numpy`, for sums `tensor.py` 633-637. -/
def Obj.toNumpy [CommRing K] (env : Env K) : Obj K → Except PyErr (ND K)
  | .atom A => A.toNumpy env
  | .sum sh ts => Obj.toNumpyLoop env (ND.zeros sh) ts

/-- The loop of `tensor.py` 635-636 from one summand on. -/
def Obj.toNumpyLoop [CommRing K] (env : Env K) : ND K → List (Obj K) → Except PyErr (ND K)
  | s, [] => .ok s
  | s, t :: ts =>
    match t.toNumpy env with
    | .error e => .error e
    | .ok A =>
      match s.iadd A with
      | .error e => .error e
      | .ok s => Obj.toNumpyLoop env s ts
end

/-- property `T` (`sketch.py` 274-277 for a sketch) -/
def Atom.T [CommRing K] : Atom K → Atom K
  | .leaf X => .leaf X.T
  | .sketched S => .sketched S.T

mutual
/-- property `T`, for sums `tensor.py` 628-631. -/
def Obj.T [CommRing K] : Obj K → Except PyErr (Obj K)
  | .atom A => .ok (.atom A.T)
  | .sum _ ts => (Obj.TList ts).andThen Obj.mkSum

/-- `[X.T for X in self.tensors]` (`tensor.py` 630). -/
def Obj.TList [CommRing K] : List (Obj K) → Except PyErr (List (Obj K))
  | [] => .ok []
  | t :: ts => t.T.andThen fun t => (Obj.TList ts).map fun ts => t :: ts
end

/-- `*` with a number (`sketch.py` 355-358 for a sketch). -/
def Atom.mul [CommRing K] (c : K) : Atom K → Except PyErr (Atom K)
  | .leaf X => .ok (.leaf (X.mul c))
  | .sketched S => (S.mul c).map Atom.sketched

mutual
/-- `*` with a number, for sums `tensor.py` 662-668. -/
def Obj.mul [CommRing K] (c : K) : Obj K → Except PyErr (Obj K)
  | .atom A => (A.mul c).map Obj.atom
  | .sum _ ts => (Obj.mulList c ts).andThen Obj.mkSum

/-- `[X * other for X in self.tensors]` (`tensor.py` 668). -/
def Obj.mulList [CommRing K] (c : K) : List (Obj K) → Except PyErr (List (Obj K))
  | [] => .ok []
  | t :: ts => (t.mul c).andThen fun t => (Obj.mulList c ts).map fun ts => t :: ts
end

/-- `tensor.py` 118-119: `__neg__` is `self * -1`. -/
def Obj.neg [CommRing K] (X : Obj K) : Except PyErr (Obj K) := X.mul (-1)

/-- the list that `+` puts into the new sum -/
def Obj.parts [Zero K] : Obj K → List (Obj K)
  | .atom A => [.atom A]
  | .sum _ ts => ts

/-! ### Inner products, norms, errors -/

/-- `X.dot(B, reverse)` for one of the five formats `X`: `tensor.py` 121-129, 250-255, 542-557.  A sketch has no `gather` and is
no `TensorTrain`, so the method of the base class is reached, which calls `B.dot(X, reverse=True)`, i.e.
`B.to_tt().dot(X, reverse=True)` (`sketch.py` 360-361), or with `reverse` multiplies the dense arrays. -/
def Leaf.dotAtom [CommRing K] (env : Env K) (X : Leaf K) (B : Atom K) (reverse : Bool) : Except PyErr K :=
  match B with
  | .leaf Y => .ok (if reverse then X.dotRev Y else X.dot Y)
  | .sketched S => (S.toTT env).map fun Y => if reverse then X.denseDot (.tt Y) else Leaf.dotRev (.tt Y) X

/-- `A.dot(B, reverse)` for objects that are no sums (`sketch.py` 360-361 for a sketch). -/
def Atom.dot [CommRing K] (env : Env K) (A B : Atom K) (reverse : Bool) : Except PyErr K :=
  match A with
  | .leaf X => X.dotAtom env B reverse
  | .sketched S => (S.toTT env).andThen fun Y => Leaf.dotAtom env (.tt Y) B reverse

mutual
/-- `X.dot(B, reverse)` for `B` no sum (`tensor.py` 670-671 for a sum `X`). -/
def Obj.dotAtom [CommRing K] (env : Env K) (B : Atom K) (reverse : Bool) : Obj K → Except PyErr K
  | .atom A => A.dot env B reverse
  | .sum _ ts => Obj.dotAtomLoop env B reverse 0 ts

/-- The generator sum of `tensor.py` 671 from one summand on. -/
def Obj.dotAtomLoop [CommRing K] (env : Env K) (B : Atom K) (reverse : Bool) : K → List (Obj K) → Except PyErr K
  | z, [] => .ok z
  | z, t :: ts => (t.dotAtom env B reverse).andThen fun x => Obj.dotAtomLoop env B reverse (z + x) ts
end

mutual
/-- `X.dot(Y, reverse)` and `X @ Y` (`tensor.py` 121-129, 136-137, 670-671).  An object that is no sum passes itself to
the `dot` of the sum (`tensor.py` 123-124), a sketch its `to_tt()` (`sketch.py` 360-361). -/
def Obj.dot [CommRing K] (env : Env K) (Y : Obj K) (reverse : Bool) : Obj K → Except PyErr K
  | .atom A =>
    match Y with
    | .atom B => A.dot env B reverse
    | .sum sh ts => (A.asLeaf env).andThen fun L => Obj.dotAtom env (.leaf L) false (.sum sh ts)
  | .sum _ ts => Obj.dotLoop env Y reverse 0 ts

/-- The generator sum of `tensor.py` 671 from one summand on. -/
def Obj.dotLoop [CommRing K] (env : Env K) (Y : Obj K) (reverse : Bool) : K → List (Obj K) → Except PyErr K
  | z, [] => .ok z
  | z, t :: ts => (Obj.dot env Y reverse t).andThen fun x => Obj.dotLoop env Y reverse (z + x) ts
end

/-- `norm` of each class: `tensor.py` 131-134 (base class, also for sketches and sums), 241-242, 442-444. -/
noncomputable def Obj.norm (env : Env ℝ) (la : LinAlg) (X : Obj ℝ) : Except PyErr ℝ :=
  match X with
  | .atom (.leaf (.sparse S)) => .ok S.norm
  | .atom (.leaf (.tt T)) => T.norm la
  | X => (Obj.dot env X false X).map fun x => √ |x|

/-- `tensor.py` 52-81: `Tensor.error`. -/
noncomputable def Obj.errorBase (env : Env ℝ) (la : LinAlg) (X Y : Obj ℝ) (relative rmse fast : Bool) :
    Except PyErr PyFloat :=
  (Y.norm env la).andThen fun otherNorm =>
  let error : Except PyErr PyFloat :=
    if fast then
      (X.norm env la).andThen fun selfNorm =>
      (Obj.dot env Y false X).andThen fun dot =>
      .ok (fastError selfNorm otherNorm dot)
    else
      (X.toNumpy env).andThen fun A =>
      (Y.toNumpy env).andThen fun B =>
      .ok (.val (A.sub B).frob)
  error.map (errorOpts X.shape relative rmse otherNorm)

/-- `X.error(Y, relative, rmse, fast)` (`tensor.py` 52-81, 580-609): a tensor train first converts a sketch with
`to_tt()` (line 594).  Not modelled: `Y` being a numpy array, which is first wrapped as `DenseTensor`. -/
noncomputable def Obj.error (env : Env ℝ) (la : LinAlg) (X Y : Obj ℝ) (relative rmse fast : Bool) :
    Except PyErr PyFloat :=
  match X, Y with
  | .atom (.leaf (.tt A)), .atom (.leaf (.tt B)) => A.error la B relative rmse
  | .atom (.leaf (.tt A)), .atom (.sketched S) => (S.toTT env).andThen fun B => A.error la B relative rmse
  | X, Y => X.errorBase env la Y relative rmse fast

/-! ### Sketching -/

/-- The contractions of a (nested) sum: tuples of tuples, one list of arrays for every summand that is no sum. -/
inductive Tree (α : Type*)
  | one (a : α)
  | many (ts : List (Tree α))

mutual
/-- Apply a function to every entry of the nested tuples. -/
def Tree.map {α β : Type*} (f : α → β) : Tree α → Tree β
  | .one a => .one (f a)
  | .many ts => .many (Tree.mapL f ts)

/-- The same for a list. -/
def Tree.mapL {α β : Type*} (f : α → β) : List (Tree α) → List (Tree β)
  | [] => []
  | t :: ts => t.map f :: Tree.mapL f ts
end

/-- `sketch_dispatch.py` 150-157: `get_sketch_method`: `AttributeError` when the DRM lacks the method, `ValueError` for a
class that is not in the table, in particular `SketchedTensorTrain`. -/
def Obj.sketchMethod [Zero K] (D : DRM K) : Obj K → Except PyErr Unit
  | .atom (.leaf X) => if D.data.supports X then .ok () else .error .attributeError
  | .atom (.sketched _) => .error .valueError
  | .sum _ _ => .ok ()

mutual
/-- `sketch_dispatch.py` 142-157 and the call of the returned method.  Layout: the code yields for every `mu` the nested
tuple of the arrays; here it is the nested tuple of the lists over `mu`. -/
def Obj.contr [CommRing K] (env : Env K) (D : DRM K) : Obj K → Except PyErr (Tree (List (ND K)))
  | .atom (.leaf X) => (D.sketch env X).map Tree.one
  | .atom (.sketched _) => .error .valueError
  | .sum _ ts => (ts.forM (Obj.sketchMethod D)).andThen fun _ => (Obj.contrL env D ts).map Tree.many

/-- The generators of the summands (`sketch_dispatch.py` 143-147). -/
def Obj.contrL [CommRing K] (env : Env K) (D : DRM K) : List (Obj K) → Except PyErr (List (Tree (List (ND K))))
  | [] => .ok []
  | t :: ts => (t.contr env D).andThen fun c => (Obj.contrL env D ts).map fun cs => c :: cs
end

/-- The contractions for one `mu`. -/
def Tree.pick [Zero K] (c : Tree (List (ND K))) (mu : ℕ) : Tree (ND K) := c.map fun l => l.getD mu (ND.zeros [])

mutual
/-- `OMEGA_METHODS[type(tensor)](...)`, for sums `sketch_dispatch.py` 85-105.  (A sketch, which is not in the table, and
tuples of another form never get here; `TypeError` stands for whatever would happen then.) -/
def Obj.omega [CommRing K] (mu : ℕ) (shape : List ℕ) : Obj K → Tree (ND K) → Tree (ND K) → Except PyErr (ND K)
  | .atom (.leaf X), .one l, .one r => .ok (omegaLeaf X mu l r)
  | .sum _ ts, .many ls, .many rs => Obj.omegaLoop mu shape (ND.zeros shape) ts ls rs
  | _, _, _ => .error .typeError

/-- The loop of `sketch_dispatch.py` 93-104 from one summand on. -/
def Obj.omegaLoop [CommRing K] (mu : ℕ) (shape : List ℕ) : ND K → List (Obj K) → List (Tree (ND K)) → List (Tree (ND K)) →
    Except PyErr (ND K)
  | om, t :: ts, l :: ls, r :: rs =>
    (t.omega mu shape l r).andThen fun O => (om.iadd O).andThen fun om => Obj.omegaLoop mu shape om ts ls rs
  | om, _, _, _ => .ok om
end

/-- A sketch array that is passed to the method of a format that is no sum. -/
def Tree.array {α : Type*} : Option (Tree α) → Except PyErr (Option α)
  | none => .ok none
  | some (.one a) => .ok (some a)
  | some (.many _) => .error .typeError

/-- `sketch_dispatch.py` 120-123: `None` is replaced by a tuple of `None`s. -/
def Tree.arrays {α : Type*} (n : ℕ) : Option (Tree α) → Except PyErr (List (Option (Tree α)))
  | none => .ok (List.replicate n none)
  | some (.many ts) => .ok (ts.map some)
  | some (.one _) => .error .typeError

mutual
/-- `PSI_METHODS[type(tensor)](...)`, for sums `sketch_dispatch.py` 111-136. -/
def Obj.psi [CommRing K] (mu : ℕ) (shape : List ℕ) : Obj K → Option (Tree (ND K)) → Option (Tree (ND K)) →
    Except PyErr (ND K)
  | .atom (.leaf X), l, r =>
    (Tree.array l).andThen fun l => (Tree.array r).andThen fun r => psiLeaf X mu shape l r
  | .atom (.sketched _), _, _ => .error .typeError
  | .sum _ ts, l, r =>
    (Tree.arrays ts.length l).andThen fun ls => (Tree.arrays ts.length r).andThen fun rs =>
    Obj.psiLoop mu shape (ND.zeros shape) ts ls rs

/-- The loop of `sketch_dispatch.py` 125-135 from one summand on. -/
def Obj.psiLoop [CommRing K] (mu : ℕ) (shape : List ℕ) : ND K → List (Obj K) → List (Option (Tree (ND K))) →
    List (Option (Tree (ND K))) → Except PyErr (ND K)
  | P, t :: ts, l :: ls, r :: rs =>
    (t.psi mu shape l r).andThen fun Q => (P.iadd Q).andThen fun P => Obj.psiLoop mu shape P ts ls rs
  | P, _, _, _ => .ok P
end

/-- `sketch_dispatch.py` 226-240: the Omega matrices. -/
def Obj.omegas [CommRing K] (X : Obj K) (lrank rrank : List ℕ) (lc rc : Tree (List (ND K))) : Except PyErr (List (ND K)) :=
  (List.range (X.shape.length - 1)).mapM fun mu =>
    X.omega mu [lrank.getD mu 0, rrank.getD mu 0] (lc.pick mu) (rc.pick mu)

/-- `sketch_dispatch.py` 248-268 for one `mu`, given the left contractions to use. -/
def Obj.psiAt [CommRing K] (X : Obj K) (lrank rrank : List ℕ) (rc : Tree (List (ND K))) (mu : ℕ) (left : Tree (ND K)) :
    Except PyErr (ND K) :=
  let d := X.shape.length
  let ls := if 0 < mu then some left else none
  let r1 := if 0 < mu then lrank.getD (mu - 1) 0 else 1
  let rs := if mu < d - 1 then some (rc.pick mu) else none
  let r2 := if mu < d - 1 then rrank.getD mu 0 else 1
  X.psi mu [r1, X.shape.getD mu 0, r2] ls rs

/-- `sketch_dispatch.py` 246-274, method `streaming`. -/
def Obj.psisStream [CommRing K] (X : Obj K) (lrank rrank : List ℕ) (lc rc : Tree (List (ND K))) :
    Except PyErr (List (ND K)) :=
  (List.range X.shape.length).mapM fun mu => X.psiAt lrank rrank rc mu (lc.pick (mu - 1))

/-- `sketch_dispatch.py` 248-274 for one `mu` of the methods `orthogonal` and `hmt` (see `psiOrthStep`). -/
def Obj.psiOrthStep [CommRing K] (env : Env K) (X : Obj K) (lrank rrank : List ℕ) (om : Option (List (ND K)))
    (rc : Tree (List (ND K))) (cores : List (ND K)) (mu : ℕ) : Except PyErr (List (ND K)) :=
  match (if 0 < mu then X.contr env (orthDRM lrank X.shape cores) else .ok (.many [])) with
  | .error e => .error e
  | .ok lc =>
    match X.psiAt lrank rrank rc mu (lc.pick (mu - 1)) with
    | .error e => .error e
    | .ok Psi =>
      if mu < X.shape.length - 1 then
        match orthStep env Psi (om.map fun l => l.getD mu (ND.zeros [])) with
        | .error e => .error e
        | .ok Q => .ok (cores ++ [Q])
      else .ok (cores ++ [Psi])

/-- `sketch_dispatch.py` 246-274, methods `orthogonal` and `hmt`. -/
def Obj.psisOrth [CommRing K] (env : Env K) (X : Obj K) (lrank rrank : List ℕ) (om : Option (List (ND K)))
    (rc : Tree (List (ND K))) : Except PyErr (List (ND K)) :=
  (List.range X.shape.length).foldlM (Obj.psiOrthStep env X lrank rrank om rc) []

/-- `sketch_dispatch.py` 202-275: `general_sketch`. -/
def Obj.generalSketch [CommRing K] (env : Env K) (X : Obj K) (left : Option (DRM K)) (right : DRM K)
    (m : Method) : Except PyErr (Container K) :=
  match m with
  | .streaming =>
    match left with
    | none => .error .valueError
    | some left =>
      (X.contr env left).andThen fun lc =>
      (X.contr env right).andThen fun rc =>
      (X.omegas left.rank right.rank.reverse lc rc).andThen fun om =>
      (X.psisStream left.rank right.rank.reverse lc rc).andThen fun psi =>
      .ok (Container.ofCores psi om)
  | .orthogonal =>
    match left with
    | none => .error .valueError
    | some left =>
      (X.contr env left).andThen fun lc =>
      (X.contr env right).andThen fun rc =>
      (X.omegas left.rank right.rank.reverse lc rc).andThen fun om =>
      (X.psisOrth env left.rank right.rank.reverse (some om) rc).andThen fun psi =>
      .ok (Container.ofCores psi om)
  | .hmt =>
      (X.contr env right).andThen fun rc =>
      let lrank := match left with
        | none => right.T.rank
        | some left => left.rank
      (X.psisOrth env lrank right.rank.reverse none rc).andThen fun psi =>
      .ok (Container.ofCores psi [])

/-- `sketch.py` 154-229: `stream_sketch` (see `streamSketch`). -/
def Obj.streamSketch [CommRing K] (env : Env K) (X : Obj K) (lrank rrank : RankArg) (kw : SketchKw K := {}) :
    Except PyErr (Sketched K) :=
  (ranksLess rrank lrank).andThen fun leftBigger =>
  (ranksLess lrank rrank).andThen fun rightBigger =>
  if leftBigger = false ∧ rightBigger = false then .error .valueError
  else
    let seed := kw.seed.getD (env.freshSeed % 2 ^ 32)
    (leftDRM env X.shape lrank rightBigger seed kw).andThen fun l =>
    (rightDRM env X.shape rrank leftBigger seed kw).andThen fun r =>
    (X.generalSketch env (some l) r .streaming).andThen fun s =>
    .ok ⟨s, l, r⟩

/-- `sketch.py` 81-151: `orthogonal_sketch` (see `orthogonalSketch`). -/
def Obj.orthogonalSketch [CommRing K] (env : Env K) (X : Obj K) (lrank rrank : RankArg) (kw : SketchKw K := {}) :
    Except PyErr (TT K × DRM K × DRM K) :=
  (ranksLess lrank rrank).andThen fun rightBigger =>
  if rightBigger = false then .error .valueError
  else
    let seed := kw.seed.getD (env.freshSeed % 2 ^ 32)
    (leftDRM env X.shape lrank true seed kw).andThen fun l =>
    (rightDRM env X.shape rrank false seed kw).andThen fun r =>
    (X.generalSketch env (some l) r .orthogonal).andThen fun s =>
    .ok (⟨s.psi⟩, l, r)

/-- `sketch.py` 44-78: `hmt_sketch` (see `hmtSketch`). -/
def Obj.hmtSketch [CommRing K] (env : Env K) (X : Obj K) (rank : RankArg) (seed : Option ℕ := none)
    (drmType : Option DRMKind := none) (drm : Option (DRM K) := none) (returnDrm : Bool := false) :
    Except PyErr (TT K) :=
  (hmtDRM env X.shape rank (seed.getD (env.freshSeed % 2 ^ 32)) drmType drm).andThen fun D =>
  (X.generalSketch env none D .hmt).andThen fun s =>
  if returnDrm then .error .nameError else .ok ⟨s.psi⟩

/-! ### Addition -/

/-- `+`: `tensor.py` 93-103 (base class), 639-643 (`TensorSum`), and `sketch.py` 292-301: a sketch on the left is
updated with a sketch of the other tensor. -/
def Obj.add [CommRing K] (env : Env K) (X Y : Obj K) : Except PyErr (Obj K) :=
  match X with
  | .atom (.sketched S) =>
    (Y.streamSketch env (.seq S.leftRank) (.seq S.rightRank)
      { left := some S.left, right := some S.right }).andThen fun o =>
    .ok (.atom (.sketched ⟨S.sketch.add o.sketch, S.left, S.right⟩))
  | X => Obj.mkSum (X.parts ++ Y.parts)

/-- `tensor.py` 115-116: `__sub__` is `self + (-other)`. -/
def Obj.sub [CommRing K] (env : Env K) (X Y : Obj K) : Except PyErr (Obj K) :=
  Y.neg.andThen fun nY => X.add env nY

end TTS
