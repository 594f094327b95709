import Verif.Model.Objects

/-!
# Model of the generators behind orthogonal and hmt sketches

The sketch methods of `TensorTrainDRM` are generators; `OrthogTTDRM` (`sketch_dispatch.py` 177-193) runs one of them while
cores are still being appended to the list `drm.cores` it reads.  `Model/Sketch.lean` and `Model/Objects.lean` replace this by
computing all contractions with the cores added so far; here the generators are state machines: what is kept between
two calls of `next` is the state, and the list of cores is read at the moment of the call.  That a generator is exhausted
is the error `stopIteration`.
-/

namespace TTS

variable {K : Type*}

/-- A suspended generator of a sketch method of `TensorTrainDRM` for one of the five formats: the loop variable `mu`
(number of arrays yielded), the running contraction (`lr_contract`, `partial_contraction`; meaningless for `mu = 0`), and
whether it has returned or raised. -/
structure LeafGen (K : Type*) [Zero K] where
  mu : ℕ
  P : ND K
  done : Bool

/-- A generator object whose body has not started. -/
def LeafGen.new [Zero K] : LeafGen K := ⟨0, ND.zeros [], false⟩

/-- The running contraction for `mu = 0`: `tensor_train_drm.py` 62-65, 75-79, 94-98, 112, 127-132. -/
def LeafGen.first [CommSemiring K] (rank0 : ℕ) (C : ND K) : Leaf K → Except PyErr (ND K)
  | .sparse X => .ok ((C.takeAxis1 (X.row 0)).reshape (C.takeAxis1 (X.row 0)).shape.tail)
  | .tt X => .ok (ND.es_ijk_ijl_kl (X.cores.getD 0 (ND.zeros [])) C)
  | .cp X => .ok (ND.es_ij_lik_jk (X.cores.getD 0 (ND.zeros [])) C)
  | .dense _ => .ok (C.reshape [C.dim 0 * C.dim 1, C.dim 2])
  | .tucker X =>
    if C.dim 0 * X.rank.getD 0 0 * C.dim 2 = X.rank.getD 0 0 * rank0 then
      .ok ((ND.es_ijk_jl_ilk C (X.factors.getD 0 (ND.zeros [])).matT).reshape [X.rank.getD 0 0, rank0])
    else .error .valueError

/-- The update of the running contraction for `mu > 0`: `tensor_train_drm.py` 66-67, 80-87, 99-106, 115-121, 136-144. -/
def LeafGen.step [CommSemiring K] (mu : ℕ) (P C : ND K) : Leaf K → ND K
  | .sparse X => ND.es_ijk_ji_jk (C.takeAxis1 (X.row mu)) P
  | .tt X => ND.es_ij_ikl_jkm_lm P (X.cores.getD mu (ND.zeros [])) C
  | .cp X => ND.es_ij_ki_jkl_il P (X.cores.getD mu (ND.zeros [])) C
  | .dense _ =>
    let N := ND.es_ij_jkl_ikl P C
    N.reshape [N.dim 0 * N.dim 1, N.dim 2]
  | .tucker X =>
    let cr := ND.es_jkl_km_jml C (X.factors.getD mu (ND.zeros [])).matT
    let N := ND.es_ij_jml_iml P cr
    N.reshape [N.dim 0 * N.dim 1, N.dim 2]

/-- What is yielded: `tensor_train_drm.py` 68-69, 88, 107, 113 and 122, 133 and 145. -/
def LeafGen.out [Zero K] (B : DRMBase) (mu : ℕ) (P : ND K) : Leaf K → ND K
  | .sparse _ => (P.cols (B.rankMin.getD mu 0) (B.rankMax.getD mu 0)).matT
  | .tt _ => P.cols (B.rankMin.getD mu 0) (B.rankMax.getD mu 0)
  | .cp _ => P.cols (B.rankMin.getD mu 0) (B.rankMax.getD mu 0)
  | .dense _ => P.matT
  | .tucker _ => P

/-- The core the body reads next.  `sketch_sparse` iterates over the list itself (line 61), so it ends when there is no
further core; the other methods run over `range(n_dims - 1)` and index the list (lines 75, 94, 115, 135), the first two from 0,
the last two from 1 after an unconditional first core (lines 112, 128). -/
def LeafGen.core [Zero K] (B : DRMBase) (cores : List (ND K)) (mu : ℕ) (X : Leaf K) : Except PyErr (ND K) :=
  let get := match cores[mu]? with
    | some C => Except.ok C
    | none => .error .indexError
  match X with
  | .sparse _ => match cores[mu]? with
    | some C => .ok C
    | none => .error .stopIteration
  | .tt _ => if mu < B.shape.length - 1 then get else .error .stopIteration
  | .cp _ => if mu < B.shape.length - 1 then get else .error .stopIteration
  | .dense _ => if mu = 0 ∨ mu < B.shape.length - 1 then get else .error .stopIteration
  | .tucker _ => if mu = 0 ∨ mu < B.shape.length - 1 then get else .error .stopIteration

/-- `next` of the generator returned by a decorated sketch method (`drm_base.py` 122-145) of a DRM with
`transpose = False`.  The shape is compared when the body starts (lines 129-135).  A generator that raised or returned only
raises `StopIteration` afterwards. -/
def LeafGen.next [CommSemiring K] (B : DRMBase) (cores : List (ND K)) (X : Leaf K) (g : LeafGen K) :
    Except PyErr (ND K) × LeafGen K :=
  let stop := { g with done := true }
  if g.done then (.error .stopIteration, g)
  else if g.mu = 0 ∧ B.shape ≠ X.shape then (.error .valueError, stop)
  else
    match LeafGen.core B cores g.mu X with
    | .error e => (.error e, stop)
    | .ok C =>
      match (if g.mu = 0 then LeafGen.first (B.rank.getD 0 0) C X else .ok (LeafGen.step g.mu g.P C X)) with
      | .error e => (.error e, stop)
      | .ok P => (.ok (LeafGen.out B g.mu P X), ⟨g.mu + 1, P, false⟩)

/-- A suspended generator for any object; for a lazy sum the generator of `sum_sketch` (`sketch_dispatch.py` 142-147): the
generators of the summands, `none` before the body has started, the number of tuples yielded, and whether it has ended. -/
inductive ObjGen (K : Type*) [Zero K]
  | leaf (g : LeafGen K)
  | sum (started : Bool) (subs : List (ObjGen K)) (count : ℕ) (done : Bool)

/-- The generator object that calling the sketch method of an object returns. -/
def ObjGen.new [Zero K] : Obj K → ObjGen K
  | .atom _ => .leaf .new
  | .sum _ _ => .sum false [] 0 false

mutual
/-- `next` of the generator for `X`: `sketch_dispatch.py` 142-147 for sums.  When the body starts, `get_sketch_method` is
called for all summands (lines 144-145; the DRM supports all five formats).  A summand whose generator is exhausted raises
`StopIteration` inside a generator expression, which python turns into `RuntimeError`. -/
def Obj.next [CommRing K] (B : DRMBase) (cores : List (ND K)) : Obj K → ObjGen K → Except PyErr (Tree (ND K)) × ObjGen K
  | .atom (.leaf X), .leaf g =>
    let r := g.next B cores X
    (r.1.map Tree.one, .leaf r.2)
  | .sum sh ts, .sum started subs count done =>
    if done then (.error .stopIteration, .sum started subs count done)
    else
      match (if started then .ok () else ts.forM (Obj.sketchMethod ⟨B, .tt cores⟩)) with
      | .error e => (.error e, .sum started subs count true)
      | .ok _ =>
        let subs := if started then subs else ts.map ObjGen.new
        if sh.length - 1 ≤ count then (.error .stopIteration, .sum true subs count true)
        else
          match Obj.nextL B cores ts subs with
          | (.error e, subs) => (.error (if e = .stopIteration then .runtimeError else e), .sum true subs count true)
          | (.ok cs, subs) => (.ok (.many cs), .sum true subs (count + 1) false)
  | _, g => (.error .valueError, g)

/-- `tuple(next(gen) for gen in sketch_generators)` (`sketch_dispatch.py` 147). -/
def Obj.nextL [CommRing K] (B : DRMBase) (cores : List (ND K)) : List (Obj K) → List (ObjGen K) →
    Except PyErr (List (Tree (ND K))) × List (ObjGen K)
  | t :: ts, g :: gs =>
    match t.next B cores g with
    | (.error e, g) => (.error e, g :: gs)
    | (.ok c, g) =>
      match Obj.nextL B cores ts gs with
      | (.error e, gs) => (.error e, g :: gs)
      | (.ok cs, gs) => (.ok (c :: cs), g :: gs)
  | _, gs => (.ok [], gs)
end

/-- `sketch_dispatch.py` 177-193: `OrthogTTDRM`; the attributes `rank` and `tensor` are parameters of the functions. -/
structure Orthog (K : Type*) [Zero K] where
  cores : List (ND K)
  generator : Option (ObjGen K)

/-- `sketch_dispatch.py` 180-185: the constructor, which looks up the sketch method. -/
def Orthog.new [CommRing K] (rank : List ℕ) (X : Obj K) : Except PyErr (Orthog K) :=
  (X.sketchMethod (orthDRM rank X.shape [])).map fun _ => ⟨[], none⟩

/-- `sketch_dispatch.py` 187-190: `add_core`. -/
def Orthog.addCore [CommRing K] (X : Obj K) (C : ND K) (s : Orthog K) : Orthog K :=
  ⟨s.cores ++ [C], some (s.generator.getD (ObjGen.new X))⟩

/-- `sketch_dispatch.py` 192-193: `__next__`; before the first core the generator is `None` (`TypeError`). -/
def Orthog.next [CommRing K] (rank : List ℕ) (X : Obj K) (s : Orthog K) : Except PyErr (Tree (ND K)) × Orthog K :=
  match s.generator with
  | none => (.error .typeError, s)
  | some g =>
    let r := X.next (orthDRM rank X.shape ([] : List (ND K))).toDRMBase s.cores g
    (r.1, ⟨s.cores, some r.2⟩)

/-- A call on an `OrthogTTDRM`. -/
inductive OrthOp (K : Type*) [Zero K]
  | add (C : ND K)
  | next

/-- Calls on an `OrthogTTDRM` in any order; the results of the calls of `next`. -/
def Orthog.run [CommRing K] (rank : List ℕ) (X : Obj K) : List (OrthOp K) → Orthog K → List (Except PyErr (Tree (ND K)))
  | [], _ => []
  | .add C :: ops, s => Orthog.run rank X ops (s.addCore X C)
  | .next :: ops, s => (s.next rank X).1 :: Orthog.run rank X ops (s.next rank X).2

/-- `sketch_dispatch.py` 248-274 for one `mu` of the methods `orthogonal` (with the Omega matrices) and `hmt` (without); the
state is the `OrthogTTDRM` and `Psi_cores`. -/
def Orthog.psiStep [CommRing K] (env : Env K) (X : Obj K) (lrank rrank : List ℕ) (om : Option (List (ND K)))
    (rc : Tree (List (ND K))) (st : Orthog K × List (ND K)) (mu : ℕ) : Except PyErr (Orthog K × List (ND K)) :=
  let r := if 0 < mu then (st.1.addCore X (st.2.getLastD (ND.zeros []))).next lrank X else (.ok (.many []), st.1)
  r.1.andThen fun left =>
  (X.psiAt lrank rrank rc mu left).andThen fun Psi =>
  if mu < X.shape.length - 1 then
    (orthStep env Psi (om.map fun l => l.getD mu (ND.zeros []))).andThen fun Q => .ok (r.2, st.2 ++ [Q])
  else .ok (r.2, st.2 ++ [Psi])

/-- `sketch_dispatch.py` 242-274. -/
def Orthog.psis [CommRing K] (env : Env K) (X : Obj K) (lrank rrank : List ℕ) (om : Option (List (ND K)))
    (rc : Tree (List (ND K))) : Except PyErr (List (ND K)) :=
  (Orthog.new lrank X).andThen fun s =>
  ((List.range X.shape.length).foldlM (Orthog.psiStep env X lrank rrank om rc) (s, [])).map Prod.snd

/-- `sketch_dispatch.py` 202-275: `general_sketch` with its generators (see `Obj.generalSketch`; for `streaming` the
generators are turned into lists at once and there is no difference). -/
def Obj.generalSketchGen [CommRing K] (env : Env K) (X : Obj K) (left : Option (DRM K)) (right : DRM K)
    (m : Method) : Except PyErr (Container K) :=
  match m with
  | .streaming => X.generalSketch env left right .streaming
  | .orthogonal =>
    match left with
    | none => .error .valueError
    | some left =>
      (X.contr env left).andThen fun lc =>
      (X.contr env right).andThen fun rc =>
      (X.omegas left.rank right.rank.reverse lc rc).andThen fun om =>
      (Orthog.psis env X left.rank right.rank.reverse (some om) rc).andThen fun psi =>
      .ok (Container.ofCores psi om)
  | .hmt =>
      (X.contr env right).andThen fun rc =>
      let lrank := match left with
        | none => right.T.rank
        | some left => left.rank
      (Orthog.psis env X lrank right.rank.reverse none rc).andThen fun psi =>
      .ok (Container.ofCores psi [])

/-- `sketch.py` 81-151: `orthogonal_sketch` with the generators (see `Obj.orthogonalSketch`). -/
def Obj.orthogonalSketchGen [CommRing K] (env : Env K) (X : Obj K) (lrank rrank : RankArg) (kw : SketchKw K := {}) :
    Except PyErr (TT K × DRM K × DRM K) :=
  (ranksLess lrank rrank).andThen fun rightBigger =>
  if rightBigger = false then .error .valueError
  else
    let seed := kw.seed.getD (env.freshSeed % 2 ^ 32)
    (leftDRM env X.shape lrank true seed kw).andThen fun l =>
    (rightDRM env X.shape rrank false seed kw).andThen fun r =>
    (X.generalSketchGen env (some l) r .orthogonal).andThen fun s =>
    .ok (⟨s.psi⟩, l, r)

/-- `sketch.py` 44-78: `hmt_sketch` with the generators (see `Obj.hmtSketch`). -/
def Obj.hmtSketchGen [CommRing K] (env : Env K) (X : Obj K) (rank : RankArg) (seed : Option ℕ := none)
    (drmType : Option DRMKind := none) (drm : Option (DRM K) := none) (returnDrm : Bool := false) :
    Except PyErr (TT K) :=
  (hmtDRM env X.shape rank (seed.getD (env.freshSeed % 2 ^ 32)) drmType drm).andThen fun D =>
  (X.generalSketchGen env none D .hmt).andThen fun s =>
  if returnDrm then .error .nameError else .ok ⟨s.psi⟩

end TTS
