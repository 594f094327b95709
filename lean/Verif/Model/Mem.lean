import Verif.Model.Tensor

/-!
# Tensor objects in memory

Which tensor objects share memory with each other (`tensor.py`).  Arrays are array objects: a buffer, seen as it is or
with all axes reversed (`np.transpose` returns a view, not a copy).  The core lists of tensor trains, CP tensors and
Tucker tensors are list objects.  Tensor objects refer to list objects and to array objects; they are numbered in the
order in which they were made, and so are the other objects.

Simplifications: `TensorSum` is in `Model/SumHeap.lean`; `self.indices` of a sparse tensor is a value; of the ways of
changing an array in place only `A[i] = v` for one entry is modelled (all others are sequences of these).
-/

namespace TTS

/-- array object: the buffer it looks at, and whether its axes are the reversed axes of the buffer -/
structure ArrObj where
  buf : ℕ
  rev : Bool

/-- The attributes of a tensor object that hold its data: `DenseTensor` (`tensor.py` 144-146), `SparseTensor` (186-194;
the coordinates of the entries and the array of entries), `TensorTrain` (305-308), `CPTensor` (683-686),
`TuckerTensor` (753-758). -/
inductive Body
  | dense (a : ℕ)
  | sparse (indices : List (List ℕ)) (a : ℕ)
  | tt (l : ℕ)
  | cp (l : ℕ)
  | tucker (l a : ℕ)

/-- the list object with the cores or factors -/
def Body.list? : Body → Option ℕ
  | .tt l => some l
  | .cp l => some l
  | .tucker l _ => some l
  | _ => none

/-- the array object that is an attribute of its own -/
def Body.arr? : Body → Option ℕ
  | .dense a => some a
  | .sparse _ a => some a
  | .tucker _ a => some a
  | _ => none

/-- A tensor object: its data, and the attribute `shape`, which is set by the constructor. -/
structure TObj where
  body : Body
  shape : List ℕ

structure Mem (K : Type*) [Zero K] where
  /-- contents of the buffers -/
  bufs : List (ND K)
  /-- array objects -/
  arrs : List ArrObj
  /-- contents of the list objects: numbers of array objects -/
  lists : List (List ℕ)
  /-- tensor objects -/
  objs : List TObj
  /-- the cached property `dict` (`tensor.py` 288-291) of the tensor objects for which it has been used -/
  caches : ℕ → Option (ℕ → Option K)

/-- Statements.  `array A`: a new array; `list as`: a new list of array objects; then the constructors, `x.T`, `x * c`,
`x.add(y)`; `setitem x i a`: `x[i] = a` (`tensor.py` 411, 723), `x.factors[i] = a` for Tucker tensors; `write a i v`:
`a[i] = v` for an array object; `gather x`: some call of `x.gather` (also by `dot`, 250-255). -/
inductive MStmt (K : Type*) [Zero K]
  | array (A : ND K)
  | list (as : List ℕ)
  | dense (a : ℕ)
  | sparse (shape : List ℕ) (indices : List (List ℕ)) (a : ℕ)
  | tt (l : ℕ)
  | cp (l : ℕ)
  | tucker (l a : ℕ)
  | T (x : ℕ)
  | mul (x : ℕ) (c : K)
  | add (x y : ℕ)
  | setitem (x i a : ℕ)
  | write (a : ℕ) (i : List ℕ) (v : K)
  | gather (x : ℕ)

namespace Mem
variable {K : Type*}

section
variable [Zero K]

/-- all axes reversed: `np.transpose(A, (n - 1, …, 0))` -/
def flip (A : ND K) : ND K := A.transpose (List.range A.ndim).reverse

/-- the array object number `a` -/
def arrObj (h : Mem K) (a : ℕ) : ArrObj := h.arrs.getD a ⟨0, false⟩

/-- the array that array object `a` currently is -/
def arr (h : Mem K) (a : ℕ) : ND K :=
  let A := h.bufs.getD (h.arrObj a).buf (ND.zeros [])
  if (h.arrObj a).rev then flip A else A

/-- the array objects in list object `l` -/
def list (h : Mem K) (l : ℕ) : List ℕ := h.lists.getD l []

/-- the data attributes of tensor object `x` -/
def body (h : Mem K) (x : ℕ) : Body := (h.objs.getD x ⟨.dense 0, []⟩).body

/-- the attribute `shape` of tensor object `x` -/
def shapeAttr (h : Mem K) (x : ℕ) : List ℕ := (h.objs.getD x ⟨.dense 0, []⟩).shape

/-- the tensor that some data attributes currently stand for -/
def leafOf (h : Mem K) (shape : List ℕ) : Body → Leaf K
  | .dense a => .dense (h.arr a)
  | .sparse ind a => .sparse ⟨shape, ind.zip ((List.range (h.arr a).size).map fun k => (h.arr a).get [k])⟩
  | .tt l => .tt ⟨(h.list l).map h.arr⟩
  | .cp l => .cp ⟨(h.list l).map h.arr⟩
  | .tucker l a => .tucker ⟨(h.list l).map h.arr, h.arr a⟩

/-- the tensor that tensor object `x` currently is -/
def val (h : Mem K) (x : ℕ) : Leaf K := h.leafOf (h.shapeAttr x) (h.body x)

/-- new array objects for freshly computed arrays -/
def allocArrs (h : Mem K) (As : List (ND K)) : Mem K :=
  { h with
    bufs := h.bufs ++ As
    arrs := h.arrs ++ (List.range As.length).map fun k => ⟨h.bufs.length + k, false⟩ }

/-- new array objects that are views of existing ones with the axes reversed -/
def allocViews (h : Mem K) (as : List ℕ) : Mem K :=
  { h with arrs := h.arrs ++ as.map fun a => ⟨(h.arrObj a).buf, !(h.arrObj a).rev⟩ }

/-- a new list object -/
def allocList (h : Mem K) (as : List ℕ) : Mem K := { h with lists := h.lists ++ [as] }

/-- a new tensor object; the constructors compute the attribute `shape` from the arrays (`tensor.py` 145, 307, 686,
757), except `SparseTensor` -/
def allocObj (h : Mem K) (shape : List ℕ) (b : Body) : Mem K :=
  { h with objs := h.objs ++ [⟨b, (h.leafOf shape b).shape⟩] }

/-- `SparseTensor.gather` (`tensor.py` 275-291) for object `x`, the entries at the positions `idxs`: it uses the
dictionary that was built by the first call -/
def gather (h : Mem K) (x : ℕ) (idxs : List (List ℕ)) : List K :=
  match h.val x with
  | .sparse X =>
    let dict := (h.caches x).getD X.dict
    idxs.map fun i => (dict (ravel X.shape i)).getD 0
  | _ => []

end

variable [CommSemiring K]

/-- One statement.  New objects get the next number; unknown numbers are a `NameError`.

* constructors: `tensor.py` 144-146, 186-198, 305-308, 683-686 (`cores[0]` is an `IndexError` for an empty list),
  753-758;
* `T`: 161-165 (view), 200-204 (the entries are shared), 310-313 (a new list of views; `ValueError` unless all cores
  have three axes), 691-694 (a new list with the same arrays), 760-765 (a new list with the same arrays, a view of
  the core; `ValueError` unless the core has one axis per factor);
* `*`: 177-178, 272-273 (new arrays), 507-512 (`deepcopy`: one copy for each array object in the list, then a new last
  core), 740-743 (a new list; only the first array is new), 782-784 (the same list of factors, a new core);
* `add`: 520-540 (new arrays; that `np.concatenate` rejects cores that do not fit is not modelled);
* `x[i] = a`: 411-412, 723-724; the other classes have no `__setitem__`.  Nothing else is updated.
* `gather`: 288-291, `cached_property`: computed by the first use, then kept.  For other classes nothing happens (the
  `AttributeError` of classes without `gather` is not modelled). -/
def step (h : Mem K) : MStmt K → Except PyErr (Mem K)
  | .array A => .ok (h.allocArrs [A])
  | .list as => if ∀ a ∈ as, a < h.arrs.length then .ok (h.allocList as) else .error .nameError
  | .dense a => if a < h.arrs.length then .ok (h.allocObj [] (.dense a)) else .error .nameError
  | .sparse shape ind a =>
    if a < h.arrs.length then .ok (h.allocObj shape (.sparse ind a)) else .error .nameError
  | .tt l => if l < h.lists.length then .ok (h.allocObj [] (.tt l)) else .error .nameError
  | .cp l =>
    if l < h.lists.length then
      if h.list l = [] then .error .indexError else .ok (h.allocObj [] (.cp l))
    else .error .nameError
  | .tucker l a =>
    if l < h.lists.length ∧ a < h.arrs.length then .ok (h.allocObj [] (.tucker l a)) else .error .nameError
  | .T x =>
    if x < h.objs.length then
      match h.body x with
      | .dense a => .ok ((h.allocViews [a]).allocObj [] (.dense h.arrs.length))
      | .sparse ind a => .ok (h.allocObj (h.shapeAttr x).reverse (.sparse (ind.map List.reverse) a))
      | .tt l =>
        if ∀ a ∈ h.list l, (h.arr a).ndim = 3 then
          .ok (((h.allocViews (h.list l).reverse).allocList
            ((List.range (h.list l).length).map fun k => h.arrs.length + k)).allocObj [] (.tt h.lists.length))
        else .error .valueError
      | .cp l => .ok ((h.allocList (h.list l).reverse).allocObj [] (.cp h.lists.length))
      | .tucker l a =>
        if (h.arr a).ndim = (h.shapeAttr x).length then
          .ok (((h.allocViews [a]).allocList (h.list l).reverse).allocObj [] (.tucker h.lists.length h.arrs.length))
        else .error .valueError
    else .error .nameError
  | .mul x c =>
    if x < h.objs.length then
      match h.body x with
      | .dense a => .ok ((h.allocArrs [(h.arr a).smul c]).allocObj [] (.dense h.arrs.length))
      | .sparse ind a => .ok ((h.allocArrs [(h.arr a).smul c]).allocObj (h.shapeAttr x) (.sparse ind h.arrs.length))
      | .tt l =>
        let as := h.list l
        match as.getLast? with
        | none => .error .indexError
        | some z =>
          let ds := as.dedup
          .ok (((h.allocArrs (ds.map h.arr ++ [(h.arr z).smul c])).allocList
            (as.dropLast.map (fun a => h.arrs.length + ds.idxOf a) ++ [h.arrs.length + ds.length])).allocObj []
              (.tt h.lists.length))
      | .cp l =>
        match h.list l with
        | [] => .error .indexError
        | a :: as =>
          .ok (((h.allocArrs [(h.arr a).smul c]).allocList (h.arrs.length :: as)).allocObj [] (.cp h.lists.length))
      | .tucker l a => .ok ((h.allocArrs [(h.arr a).smul c]).allocObj [] (.tucker l h.arrs.length))
    else .error .nameError
  | .add x y =>
    if x < h.objs.length ∧ y < h.objs.length then
      match h.val x, h.val y with
      | .tt X, .tt Y =>
        let Cs := (X.add Y).cores
        .ok (((h.allocArrs Cs).allocList ((List.range Cs.length).map fun k => h.arrs.length + k)).allocObj []
          (.tt h.lists.length))
      | _, _ => .error .attributeError
    else .error .nameError
  | .setitem x i a =>
    if x < h.objs.length ∧ a < h.arrs.length then
      match (h.body x).list? with
      | some l =>
        if i < (h.list l).length then .ok { h with lists := h.lists.set l ((h.list l).set i a) }
        else .error .indexError
      | none => .error .typeError
    else .error .nameError
  | .write a i v =>
    if a < h.arrs.length then
      if InR (h.arr a).shape i then
        let b := (h.arrObj a).buf
        .ok { h with
          bufs := h.bufs.set b ((h.bufs.getD b (ND.zeros [])).setEntry (if (h.arrObj a).rev then i.reverse else i) v) }
      else .error .indexError
    else .error .nameError
  | .gather x =>
    if x < h.objs.length then
      match h.val x with
      | .sparse X => .ok { h with caches := Function.update h.caches x (some ((h.caches x).getD X.dict)) }
      | _ => .ok h
    else .error .nameError

/-- a program -/
def run (h : Mem K) : List (MStmt K) → Except PyErr (Mem K)
  | [] => .ok h
  | s :: ss =>
    match h.step s with
    | .error e => .error e
    | .ok h' => h'.run ss

/-- before the program -/
def empty : Mem K := ⟨[], [], [], [], fun _ => none⟩

end Mem
end TTS
