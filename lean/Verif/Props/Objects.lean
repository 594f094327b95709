import Verif.Props.OrthErr
import Verif.Spec.Objects
import Verif.Props.Norm
import Verif.Props.SketchT

/-!
# C82: sketches and (nested) sums as tensors

What objects stand for (`Obj.entry`, `Obj.array`) and which are well-formed (`Obj.Good`) is in `Spec/Objects.lean`.
-/

namespace TTS.Props

open TTS Finset

variable {K : Type*} [CommRing K]

/-- Induction over nested sums. -/
theorem Obj.induct {p : Obj K → Prop} (atom : ∀ A, p (.atom A)) (sum : ∀ sh ts, (∀ t ∈ ts, p t) → p (.sum sh ts)) :
    ∀ X, p X :=
  Obj.rec (motive_2 := fun ts => ∀ t ∈ ts, p t) atom sum (by simp)
    fun t ts h1 h2 => by simpa using ⟨h1, h2⟩

theorem goodL_iff {env : Env K} {sh : List ℕ} {ts : List (Obj K)} : Obj.GoodL env sh ts ↔ ∀ t ∈ ts, t.Good env sh := by
  induction ts with
  | nil => simp [Obj.GoodL]
  | cons t ts ih => simp [Obj.GoodL, ih]

theorem noEmptyL_iff {ts : List (Obj K)} : Obj.NoEmptyL ts ↔ ∀ t ∈ ts, t.NoEmpty := by
  induction ts with
  | nil => simp [Obj.NoEmptyL]
  | cons t ts ih => simp [Obj.NoEmptyL, ih]

theorem sketchesL_eq {ts : List (Obj K)} : Obj.sketchesL ts = ts.flatMap Obj.sketches := by
  induction ts with
  | nil => rfl
  | cons t ts ih => simp [Obj.sketchesL, ih]

theorem leavesL_eq {ts : List (Obj K)} : Obj.leavesL ts = ts.flatMap Obj.leaves := by
  induction ts with
  | nil => rfl
  | cons t ts ih => simp [Obj.leavesL, ih]

theorem entryL_eq {env : Env K} {i : List ℕ} {ts : List (Obj K)} :
    Obj.entryL env i ts = (ts.map fun t => t.entry env i).sum := by
  induction ts with
  | nil => rfl
  | cons t ts ih => simp [Obj.entryL, ih]

theorem good_shape {env : Env K} {sh : List ℕ} : ∀ {X : Obj K}, X.Good env sh → X.shape = sh
  | .atom (.leaf _), h => h.2.2
  | .atom (.sketched _), h => h.1
  | .sum _ _, h => h.1

/-- An object that is no sum has the entries of the format it converts to. -/
theorem atom_leaf {env : Env K} {sh : List ℕ} {A : Atom K} (h : (Obj.atom A).Good env sh) :
    ∃ L, A.asLeaf env = .ok L ∧ L.Valid ∧ L.Distinct ∧ L.shape = sh ∧ A.toNumpy env = .ok L.toNumpy ∧
      (∀ i, (Obj.atom A).entry env i = L.toNumpy.get i) ∧
      ((∃ X, A = .leaf X ∧ L = X) ∨ ∃ S Y, A = .sketched S ∧ S.toTT env = .ok Y ∧ L = .tt Y) := by
  cases A with
  | leaf X => exact ⟨X, rfl, h.1, h.2.1, h.2.2, rfl, fun _ => rfl, .inl ⟨X, rfl, rfl⟩⟩
  | sketched S =>
    obtain ⟨-, Y, h1, h2, h3⟩ := h
    refine ⟨.tt Y, by show (S.toTT env).map _ = _; rw [h1]; rfl, h2, trivial, h3,
      by show (S.toTT env).map _ = _; rw [h1]; rfl, fun i => ?_, .inr ⟨S, Y, rfl, h1, rfl⟩⟩
    show (match S.toTT env with | .ok Y => Y.toNumpy.get i | .error _ => 0) = _
    rw [h1]; rfl

/-- Entries outside the shape are zero. -/
theorem entry_supp {env : Env K} {sh : List ℕ} {X : Obj K} (h : X.Good env sh) {i : List ℕ} (hi : ¬ InR sh i) :
    X.entry env i = 0 := by
  revert h
  refine Obj.induct (p := fun X => X.Good env sh → X.entry env i = 0) ?_ ?_ X
  · intro A h
    obtain ⟨L, -, h2, -, h4, -, h6, -⟩ := atom_leaf h
    rw [h6]
    exact L.toNumpy.supp _ (by rw [Leaf.toNumpy_shape h2, h4]; exact hi)
  · intro s ts ih h
    show Obj.entryL env i ts = 0
    rw [entryL_eq]
    refine List.sum_eq_zero fun x hx => ?_
    obtain ⟨t, ht, rfl⟩ := List.mem_map.1 hx
    exact ih t ht (goodL_iff.1 h.2 t ht)

theorem array_get {env : Env K} {sh : List ℕ} {X : Obj K} (h : X.Good env sh) (i : List ℕ) :
    (X.array env sh).get i = X.entry env i := by
  unfold Obj.array
  rw [ND.ofFn_get']
  split
  · rfl
  · rename_i hi; exact (entry_supp h hi).symm

theorem array_shape (env : Env K) (sh : List ℕ) (X : Obj K) : (X.array env sh).shape = sh := rfl

theorem array_eq {env : Env K} {sh : List ℕ} {X : Obj K} {A : ND K} (hs : A.shape = sh)
    (h : ∀ i, A.get i = X.entry env i) : A = X.array env sh :=
  ND.ext' (by rw [hs]; rfl) fun i hi => by
    rw [hs] at hi
    rw [h, Obj.array, ND.ofFn_get hi]

/-! ### to_numpy -/

theorem toNumpyLoop_spec {env : Env K} {sh : List ℕ} : ∀ {ts : List (Obj K)} {s : ND K}, s.shape = sh →
    (∀ t ∈ ts, ∃ A, t.toNumpy env = .ok A ∧ A.shape = sh ∧ ∀ i, A.get i = t.entry env i) →
    ∃ A, Obj.toNumpyLoop env s ts = .ok A ∧ A.shape = sh ∧ ∀ i, A.get i = s.get i + (ts.map fun t => t.entry env i).sum
  | [], s, hs, _ => ⟨s, rfl, hs, by simp⟩
  | t :: ts, s, hs, h => by
    obtain ⟨A, h1, h2, h3⟩ := h t (by simp)
    have h4 : s.iadd A = .ok (s.add A) := if_pos (hs.trans h2.symm)
    obtain ⟨B, b1, b2, b3⟩ := toNumpyLoop_spec (env := env) (ts := ts) (s := s.add A) hs fun t ht => h t (by simp [ht])
    refine ⟨B, ?_, b2, fun i => ?_⟩
    · simp only [Obj.toNumpyLoop, h1, h4]; exact b1
    · rw [b3, ND.add_get _ _ (hs.trans h2.symm), h3]
      simp [add_assoc]

/-- **C82, to_numpy.** `to_numpy` of every well-formed object is the array of its entries. -/
theorem C82_numpy {env : Env K} {sh : List ℕ} {X : Obj K} (h : X.Good env sh) :
    X.toNumpy env = .ok (X.array env sh) := by
  suffices ∃ A, X.toNumpy env = .ok A ∧ A.shape = sh ∧ ∀ i, A.get i = X.entry env i by
    obtain ⟨A, h1, h2, h3⟩ := this
    rw [h1, array_eq h2 h3]
  induction X using Obj.induct with
  | atom A =>
    obtain ⟨L, -, h2, -, h4, h5, h6, -⟩ := atom_leaf h
    exact ⟨L.toNumpy, h5, (Leaf.toNumpy_shape h2).trans h4, fun i => (h6 i).symm⟩
  | sum s ts ih =>
    obtain ⟨rfl, h⟩ := h
    obtain ⟨A, h1, h2, h3⟩ := toNumpyLoop_spec (env := env) (ts := ts) (sh := s) (s := ND.zeros s) rfl fun t ht => ih t ht (goodL_iff.1 h t ht)
    refine ⟨A, by simpa only [Obj.toNumpy] using h1, h2, fun i => ?_⟩
    rw [h3, ND.zeros_get, zero_add]
    exact entryL_eq.symm

/-! ### Inner products -/

/-- The inner product of the entries. -/
theorem inner_array {env : Env K} {sh : List ℕ} {X Y : Obj K} (hX : X.Good env sh) (hY : Y.Good env sh) :
    innerND (X.array env sh) (Y.array env sh) = sumIdx sh fun i => X.entry env i * Y.entry env i := by
  unfold innerND
  exact sumIdx_congr fun i _ => by rw [array_get hX, array_get hY]

theorem inner_leaf {env : Env K} {sh : List ℕ} {X Y : Obj K} {A B : Leaf K} (hA : A.Valid) (sA : A.shape = sh)
    (eA : ∀ i, X.entry env i = A.toNumpy.get i) (eB : ∀ i, Y.entry env i = B.toNumpy.get i) :
    innerND A.toNumpy B.toNumpy = sumIdx sh fun i => X.entry env i * Y.entry env i := by
  unfold innerND
  rw [Leaf.toNumpy_shape hA, sA]
  exact sumIdx_congr fun i _ => by rw [eA, eB]

theorem atom_dot {env : Env K} {sh : List ℕ} {A B : Atom K} (hA : (Obj.atom A).Good env sh)
    (hB : (Obj.atom B).Good env sh) (reverse : Bool) :
    A.dot env B reverse = .ok (sumIdx sh fun i => (Obj.atom A).entry env i * (Obj.atom B).entry env i) := by
  obtain ⟨L, a1, a2, a3, a4, -, a6, a7⟩ := atom_leaf hA
  obtain ⟨M, b1, b2, b3, b4, -, b6, b7⟩ := atom_leaf hB
  have hs : L.shape = M.shape := a4.trans b4.symm
  have e := inner_leaf (env := env) (X := .atom A) (Y := .atom B) a2 a4 a6 b6
  have hns : L.toNumpy.shape = M.toNumpy.shape := by rw [Leaf.toNumpy_shape a2, Leaf.toNumpy_shape b2, hs]
  have key : L.dotAtom env B reverse = .ok (innerND L.toNumpy M.toNumpy) := by
    rcases b7 with ⟨Y, rfl, rfl⟩ | ⟨S, Y, rfl, h, rfl⟩
    · show Except.ok _ = _
      cases reverse
      · exact congrArg Except.ok (Leaf.dot_eq a2 b2 a3 b3 hs)
      · exact congrArg Except.ok (Leaf.dotRev_eq a2 b2 a3 hs)
    · show (S.toTT env).map _ = _
      rw [h]
      cases reverse
      · exact congrArg Except.ok ((Leaf.dotRev_eq b2 a2 b3 hs.symm).trans (innerND_comm hns.symm))
      · exact congrArg Except.ok (Leaf.denseDot_eq hns)
  rw [← e, ← key]
  rcases a7 with ⟨Y, rfl, rfl⟩ | ⟨S, Y, rfl, h, rfl⟩
  · rfl
  · show (S.toTT env).andThen _ = _
    rw [h]; rfl

theorem sum_inner {sh : List ℕ} (f : Obj K → List ℕ → K) (g : List ℕ → K) : ∀ ts : List (Obj K),
    (ts.map fun t => sumIdx sh fun i => f t i * g i).sum = sumIdx sh fun i => (ts.map fun t => f t i).sum * g i
  | [] => by simp [sumIdx_zero]
  | t :: ts => by
    rw [List.map_cons, List.sum_cons, sum_inner f g ts, ← sumIdx_add]
    exact sumIdx_congr fun i _ => by rw [List.map_cons, List.sum_cons, add_mul]

theorem dotAtomLoop_spec {env : Env K} {B : Atom K} {reverse : Bool} {f : Obj K → K} : ∀ {ts : List (Obj K)} {z : K},
    (∀ t ∈ ts, t.dotAtom env B reverse = .ok (f t)) →
    Obj.dotAtomLoop env B reverse z ts = .ok (z + (ts.map f).sum)
  | [], z, _ => by simp [Obj.dotAtomLoop]
  | t :: ts, z, h => by
    simp only [Obj.dotAtomLoop, h t (by simp), Except.andThen]
    rw [dotAtomLoop_spec fun t ht => h t (by simp [ht])]
    simp [add_assoc]

theorem dotLoop_spec {env : Env K} {Y : Obj K} {reverse : Bool} {f : Obj K → K} : ∀ {ts : List (Obj K)} {z : K},
    (∀ t ∈ ts, Obj.dot env Y reverse t = .ok (f t)) →
    Obj.dotLoop env Y reverse z ts = .ok (z + (ts.map f).sum)
  | [], z, _ => by simp [Obj.dotLoop]
  | t :: ts, z, h => by
    simp only [Obj.dotLoop, h t (by simp), Except.andThen]
    rw [dotLoop_spec fun t ht => h t (by simp [ht])]
    simp [add_assoc]

theorem dotAtom_spec {env : Env K} {sh : List ℕ} {X : Obj K} {B : Atom K} (hX : X.Good env sh)
    (hB : (Obj.atom B).Good env sh) (reverse : Bool) :
    X.dotAtom env B reverse = .ok (sumIdx sh fun i => X.entry env i * (Obj.atom B).entry env i) := by
  induction X using Obj.induct with
  | atom A =>
    have h := hX
    simpa only [Obj.dotAtom] using atom_dot h hB reverse
  | sum s ts ih =>
    obtain ⟨rfl, h⟩ := hX
    simp only [Obj.dotAtom]
    rw [dotAtomLoop_spec fun t ht => ih t ht (goodL_iff.1 h t ht), zero_add,
      sum_inner (fun t i => t.entry env i) (fun i => (Obj.atom B).entry env i)]
    congr 1
    refine sumIdx_congr fun i _ => ?_
    rw [← entryL_eq]; rfl

/-- **C82, dot.** `X.dot(Y)`, `X.dot(Y, reverse=True)` and `X @ Y` are the inner product of the arrays of `X` and `Y`,
whatever the classes of the two. -/
theorem C82_dot {env : Env K} {sh : List ℕ} {X Y : Obj K} (hX : X.Good env sh) (hY : Y.Good env sh) (reverse : Bool) :
    Obj.dot env Y reverse X = .ok (innerND (X.array env sh) (Y.array env sh)) := by
  rw [inner_array hX hY]
  induction X using Obj.induct with
  | atom A =>
    have h := hX
    cases Y with
    | atom B => simpa only [Obj.dot] using atom_dot h hY reverse
    | sum s ts =>
      obtain ⟨L, a1, a2, a3, a4, -, a6, -⟩ := atom_leaf h
      have hL : (Obj.atom (.leaf L)).Good env sh := ⟨a2, a3, a4⟩
      simp only [Obj.dot, a1, Except.andThen]
      rw [dotAtom_spec hY hL]
      congr 1
      exact sumIdx_congr fun i _ => by rw [mul_comm, a6]; rfl
  | sum s ts ih =>
    obtain ⟨rfl, h⟩ := hX
    simp only [Obj.dot]
    rw [dotLoop_spec fun t ht => ih t ht (goodL_iff.1 h t ht), zero_add,
      sum_inner (fun t i => t.entry env i) (fun i => Y.entry env i)]
    congr 1
    refine sumIdx_congr fun i _ => ?_
    rw [← entryL_eq]; rfl

/-! ### Norms and errors -/

theorem base_norm {env : Env ℝ} {sh : List ℕ} {X : Obj ℝ} (hX : X.Good env sh) :
    (Obj.dot env X false X).map (fun x => √ |x|) = .ok (√ (normSq (X.array env sh))) := by
  rw [C82_dot hX hX, ← normSq_inner]
  show Except.ok (√ |_|) = _
  rw [abs_of_nonneg (normSq_nonneg _)]

/-- **C82, norm.** `X.norm()` is the Frobenius norm of the array of `X`. -/
theorem C82_norm {env : Env ℝ} {la : LinAlg} (hq : la.QROk) {sh : List ℕ} {X : Obj ℝ} (hX : X.Good env sh)
    (hp : X.PosTT env) : X.norm env la = .ok (√ (normSq (X.array env sh))) := by
  have base := base_norm hX
  have leafcase : ∀ L : Leaf ℝ, X = .atom (.leaf L) → L.toNumpy = X.array env sh := by
    rintro L rfl
    exact array_eq ((Leaf.toNumpy_shape hX.1).trans hX.2.2) fun i => rfl
  match X, hX, hp, base, leafcase with
  | .atom (.leaf (.tt Y)), hX, hp, _, lc =>
    have := C12 hq (.leaf (.tt Y)) hX.1 trivial hp
    rw [← lc _ rfl]; exact this
  | .atom (.leaf (.sparse Y)), hX, hp, _, lc =>
    have := C12 hq (.leaf (.sparse Y)) hX.1 hX.2.1 trivial
    rw [← lc _ rfl]; exact this
  | .atom (.leaf (.dense Y)), _, _, base, _ => exact base
  | .atom (.leaf (.cp Y)), _, _, base, _ => exact base
  | .atom (.leaf (.tucker Y)), _, _, base, _ => exact base
  | .atom (.sketched S), _, _, base, _ => exact base
  | .sum s ts, _, _, base, _ => exact base

/-- `error` of the base class. -/
theorem obj_errorBase {env : Env ℝ} {la : LinAlg} (hq : la.QROk) {sh : List ℕ} {X Y : Obj ℝ} (hX : X.Good env sh)
    (hY : Y.Good env sh) (pX : X.PosTT env) (pY : Y.PosTT env) (relative rmse fast : Bool)
    (hr : rmse = true → 0 < sh.prod)
    (hf : fast = true → normSq (X.array env sh) + normSq (Y.array env sh) ≠ 0) :
    X.errorBase env la Y relative rmse fast = .ok (errorSpec (X.array env sh) (Y.array env sh) relative rmse) := by
  have hd := C13 hq (.leaf (.dense (X.array env sh))) (.leaf (.dense (Y.array env sh))) trivial trivial trivial trivial
    trivial trivial rfl (fun h => h.elim) relative rmse fast hr hf
  rw [show (Tensor.leaf (.dense (X.array env sh))).toNumpy = X.array env sh from rfl,
    show (Tensor.leaf (.dense (Y.array env sh))).toNumpy = Y.array env sh from rfl] at hd
  rw [← hd]
  have n1 := C12 hq (.leaf (.dense (X.array env sh))) trivial trivial trivial
  have n2 := C12 hq (.leaf (.dense (Y.array env sh))) trivial trivial trivial
  have d := Tensor.dot_eq (X := .leaf (.dense (X.array env sh))) (Y := .leaf (.dense (Y.array env sh))) trivial trivial
    trivial trivial rfl
  unfold Obj.errorBase
  rw [C82_norm hq hY pY, C82_norm hq hX pX, C82_dot hX hY, C82_numpy hX, C82_numpy hY, good_shape hX]
  show Except.map _ _ = Tensor.errorBase la (.leaf (.dense (X.array env sh))) (.leaf (.dense (Y.array env sh)))
    relative rmse fast
  unfold Tensor.errorBase
  rw [n1, n2, d]
  cases fast <;> rfl

/-- **C82, error.** `X.error(Y)` is the Frobenius norm of the difference of the arrays, and the same with the flags as in
C13, whatever the classes of the two: for instance the error of a sketch against the tensor it was made from, or of a tensor
train against a sketch.  Provisos as in C13; a tensor train and a sketch that are compared must have at least two
modes. -/
theorem C82_error {env : Env ℝ} {la : LinAlg} (hq : la.QROk) {sh : List ℕ} {X Y : Obj ℝ} (hX : X.Good env sh)
    (hY : Y.Good env sh) (pX : X.PosTT env) (pY : Y.PosTT env) (hd : 2 ≤ sh.length) (relative rmse fast : Bool)
    (hr : rmse = true → 0 < sh.prod)
    (hf : fast = true → normSq (X.array env sh) + normSq (Y.array env sh) ≠ 0) :
    X.error env la Y relative rmse fast = .ok (errorSpec (X.array env sh) (Y.array env sh) relative rmse) := by
  have base := obj_errorBase hq hX hY pX pY relative rmse fast hr hf
  have main : ∀ A B : TT ℝ, X = .atom (.leaf (.tt A)) → B.Valid → B.Pos → B.shape = sh →
      (∀ i, B.toNumpy.get i = Y.entry env i) →
      A.error la B relative rmse = .ok (errorSpec (X.array env sh) (Y.array env sh) relative rmse) := by
    rintro A B rfl vB pB sB eB
    have sA : A.shape = sh := hX.2.2
    have := C13 hq (.leaf (.tt A)) (.leaf (.tt B)) hX.1 vB trivial trivial pX pB (sA.trans sB.symm)
      (fun _ => by show 2 ≤ A.shape.length; rw [sA]; exact hd) relative rmse false
      (by intro h; show 0 < A.shape.prod; rw [sA]; exact hr h) (by simp)
    rw [show (Tensor.leaf (.tt A)).toNumpy = (Obj.atom (.leaf (.tt A))).array env sh from
        array_eq ((TT.toNumpy_shape hX.1).trans sA) fun i => rfl,
      show (Tensor.leaf (.tt B)).toNumpy = Y.array env sh from array_eq ((TT.toNumpy_shape vB).trans sB) eB] at this
    exact this
  match X, Y, hY, pY, base, main with
  | .atom (.leaf (.tt A)), .atom (.leaf (.tt B)), hY, pY, _, main => exact main A B rfl hY.1 pY hY.2.2 fun i => rfl
  | .atom (.leaf (.tt A)), .atom (.sketched S), hY, pY, _, main =>
    obtain ⟨-, B, b1, b2, b3⟩ := hY
    show (S.toTT env).andThen _ = _
    rw [b1]
    exact main A B rfl b2 (pY B b1) b3 fun i => by simp only [Obj.entry, b1]
  | .atom (.leaf (.tt A)), .atom (.leaf (.dense B)), _, _, base, _ => exact base
  | .atom (.leaf (.tt A)), .atom (.leaf (.sparse B)), _, _, base, _ => exact base
  | .atom (.leaf (.tt A)), .atom (.leaf (.cp B)), _, _, base, _ => exact base
  | .atom (.leaf (.tt A)), .atom (.leaf (.tucker B)), _, _, base, _ => exact base
  | .atom (.leaf (.tt A)), .sum _ _, _, _, base, _ => exact base
  | .atom (.leaf (.dense A)), _, _, _, base, _ => exact base
  | .atom (.leaf (.sparse A)), _, _, _, base, _ => exact base
  | .atom (.leaf (.cp A)), _, _, _, base, _ => exact base
  | .atom (.leaf (.tucker A)), _, _, _, base, _ => exact base
  | .atom (.sketched A), _, _, _, base, _ => exact base
  | .sum _ _, _, _, _, base, _ => exact base

/-! ### Transposes, multiples, sums, sizes -/

theorem TList_spec {env : Env K} {sh : List ℕ} : ∀ {ts : List (Obj K)},
    (∀ t ∈ ts, ∃ Y, t.T = .ok Y ∧ Y.Good env sh.reverse ∧ Y.NoEmpty ∧ ∀ i, Y.entry env i.reverse = t.entry env i) →
    ∃ us, Obj.TList ts = .ok us ∧ us.length = ts.length ∧ (∀ u ∈ us, u.Good env sh.reverse ∧ u.NoEmpty) ∧
      ∀ i, (us.map fun u => u.entry env i.reverse).sum = (ts.map fun t => t.entry env i).sum
  | [], _ => ⟨[], rfl, rfl, by simp, by simp⟩
  | t :: ts, h => by
    obtain ⟨Y, y1, y2, y3, y4⟩ := h t (by simp)
    obtain ⟨us, u1, u2, u3, u4⟩ := TList_spec (env := env) (ts := ts) fun t ht => h t (by simp [ht])
    refine ⟨Y :: us, by simp only [Obj.TList, y1, u1]; rfl, by simp [u2], ?_, fun i => ?_⟩
    · simpa using ⟨⟨y2, y3⟩, u3⟩
    · rw [List.map_cons, List.sum_cons, u4, y4, List.map_cons, List.sum_cons]

/-- **C82, T.** `X.T` exists, is well-formed of the reversed shape, and its entries are those of `X` with the indices
reversed. -/
theorem C82_T {env : Env K} {sh : List ℕ} {X : Obj K} (hX : X.Good env sh) (hn : X.NoEmpty)
    (hT : ∀ S ∈ X.sketches, S.Transposes env) :
    ∃ Y, X.T = .ok Y ∧ Y.Good env sh.reverse ∧ Y.NoEmpty ∧ ∀ i, Y.entry env i.reverse = X.entry env i := by
  induction X using Obj.induct with
  | atom A =>
    cases A with
    | leaf L =>
      obtain ⟨h1, h2, h3⟩ := hX
      exact ⟨.atom (.leaf L.T), rfl, ⟨Leaf.T_valid h1, Leaf.T_distinct h2, (Leaf.T_shape h1).trans (congrArg _ h3)⟩, trivial,
        fun i => Leaf.T_get h1 i⟩
    | sketched S =>
      obtain ⟨h1, Y, h2, h3, h4⟩ := hX
      obtain ⟨Y', k1, k2, k3⟩ := hT S (by simp [Obj.sketches])
      obtain rfl : Y' = Y := by rw [h2] at k1; injection k1 with k1; exact k1.symm
      refine ⟨.atom (.sketched S.T), rfl, ⟨k3.trans (congrArg _ h1), Y'.T, k2, Leaf.T_valid (X := .tt Y') h3,
        (Leaf.T_shape (X := .tt Y') h3).trans (congrArg _ h4)⟩, trivial, fun i => ?_⟩
      simp only [Obj.entry, k2, h2]
      exact Leaf.T_get (X := .tt Y') h3 i
  | sum s ts ih =>
    obtain ⟨rfl, h⟩ := hX
    obtain ⟨ne, hn⟩ := hn
    obtain ⟨us, u1, u2, u3, u4⟩ := TList_spec (ts := ts) fun t ht => ih t ht (goodL_iff.1 h t ht) (noEmptyL_iff.1 hn t ht)
      fun S hS => hT S (by simp only [Obj.sketches, sketchesL_eq]; exact List.mem_flatMap.2 ⟨t, ht, hS⟩)
    match us, u1, u2, u3, u4 with
    | [], _, u2, _, _ => exact absurd (List.length_eq_zero_iff.1 u2.symm) ne
    | u :: us, u1, _, u3, u4 =>
      refine ⟨.sum u.shape (u :: us), by simp only [Obj.T, u1]; rfl,
        ⟨good_shape (u3 u (by simp)).1, goodL_iff.2 fun v hv => (u3 v hv).1⟩,
        ⟨by simp, noEmptyL_iff.2 fun v hv => (u3 v hv).2⟩, fun i => ?_⟩
      show Obj.entryL env _ (u :: us) = Obj.entryL env i ts
      rw [entryL_eq, entryL_eq, u4]

theorem mulList_spec {env : Env K} {sh : List ℕ} {c : K} : ∀ {ts : List (Obj K)},
    (∀ t ∈ ts, ∃ Y, t.mul c = .ok Y ∧ Y.Good env sh ∧ Y.NoEmpty ∧ ∀ i, Y.entry env i = t.entry env i * c) →
    ∃ us, Obj.mulList c ts = .ok us ∧ us.length = ts.length ∧ (∀ u ∈ us, u.Good env sh ∧ u.NoEmpty) ∧
      ∀ i, (us.map fun u => u.entry env i).sum = (ts.map fun t => t.entry env i).sum * c
  | [], _ => ⟨[], rfl, rfl, by simp, by simp⟩
  | t :: ts, h => by
    obtain ⟨Y, y1, y2, y3, y4⟩ := h t (by simp)
    obtain ⟨us, u1, u2, u3, u4⟩ := mulList_spec (env := env) (ts := ts) fun t ht => h t (by simp [ht])
    refine ⟨Y :: us, by simp only [Obj.mulList, y1, u1]; rfl, by simp [u2], ?_, fun i => ?_⟩
    · simpa using ⟨⟨y2, y3⟩, u3⟩
    · rw [List.map_cons, List.sum_cons, u4, y4, List.map_cons, List.sum_cons, add_mul]

theorem leaf_mul_distinct {L : Leaf K} (h : L.Distinct) (c : K) : (L.mul c).Distinct := by
  cases L with
  | sparse X =>
    show ((X.entries.map _).map Prod.fst).Nodup
    rw [List.map_map]
    exact h
  | _ => trivial

/-- **C82, multiples.** An object without sketches can be scaled, at any depth of nesting. -/
theorem C82_mul {env : Env K} {sh : List ℕ} {X : Obj K} (hX : X.Good env sh) (hn : X.NoEmpty) (hS : X.sketches = [])
    (c : K) : ∃ Y, X.mul c = .ok Y ∧ Y.Good env sh ∧ Y.NoEmpty ∧ ∀ i, Y.entry env i = X.entry env i * c := by
  induction X using Obj.induct with
  | atom A =>
    cases A with
    | leaf L =>
      obtain ⟨h1, h2, h3⟩ := hX
      exact ⟨.atom (.leaf (L.mul c)), rfl, ⟨Leaf.mul_valid h1 c, leaf_mul_distinct h2 c, (Leaf.mul_shape h1 c).trans h3⟩,
        trivial, fun i => Leaf.mul_get h1 c i⟩
    | sketched S => exact absurd hS (by simp [Obj.sketches])
  | sum s ts ih =>
    obtain ⟨rfl, h⟩ := hX
    obtain ⟨ne, hn⟩ := hn
    simp only [Obj.sketches, sketchesL_eq, List.flatMap_eq_nil_iff] at hS
    obtain ⟨us, u1, u2, u3, u4⟩ := mulList_spec (ts := ts) fun t ht => ih t ht (goodL_iff.1 h t ht) (noEmptyL_iff.1 hn t ht)
      (hS t ht)
    match us, u1, u2, u3, u4 with
    | [], _, u2, _, _ => exact absurd (List.length_eq_zero_iff.1 u2.symm) ne
    | u :: us, u1, _, u3, u4 =>
      refine ⟨.sum u.shape (u :: us), by simp only [Obj.mul, u1]; rfl,
        ⟨good_shape (u3 u (by simp)).1, goodL_iff.2 fun v hv => (u3 v hv).1⟩,
        ⟨by simp, noEmptyL_iff.2 fun v hv => (u3 v hv).2⟩, fun i => ?_⟩
      show Obj.entryL env _ (u :: us) = Obj.entryL env i ts * c
      rw [entryL_eq, entryL_eq, u4]

theorem mul_ok {c : K} {X Y : Obj K} (h : X.mul c = .ok Y) : X.sketches = [] := by
  induction X using Obj.induct generalizing Y with
  | atom A =>
    cases A with
    | leaf L => rfl
    | sketched S => exact absurd h (by simp [Obj.mul, Atom.mul, Sketched.mul, Container.mul, Except.andThen, Except.map])
  | sum s ts ih =>
    simp only [Obj.mul] at h
    obtain ⟨us, h, -⟩ := andThen_ok h
    simp only [Obj.sketches, sketchesL_eq, List.flatMap_eq_nil_iff]
    have : ∀ (ts : List (Obj K)), (∀ t ∈ ts, ∀ Y, t.mul c = .ok Y → t.sketches = []) → ∀ us, Obj.mulList c ts = .ok us →
        ∀ t ∈ ts, t.sketches = [] := by
      intro ts
      induction ts with
      | nil => simp
      | cons t ts ih' =>
        intro hh us h
        simp only [Obj.mulList] at h
        obtain ⟨v, h1, h2⟩ := andThen_ok h
        have h3 : ∃ vs, Obj.mulList c ts = .ok vs := by
          cases hm : Obj.mulList c ts with
          | error e => rw [hm] at h2; cases h2
          | ok vs => exact ⟨vs, rfl⟩
        obtain ⟨vs, h3⟩ := h3
        intro u hu
        rcases List.mem_cons.1 hu with rfl | hu
        · exact hh _ (by simp) _ h1
        · exact ih' (fun t ht => hh t (by simp [ht])) vs h3 u hu
    exact this ts (fun t ht Y hY => ih t ht hY) us h

/-- **C82, multiples fail with sketches** (as C46): an object with a sketch somewhere in it cannot be scaled, negated or
subtracted. -/
theorem C82_mul_fails {X : Obj K} (hS : X.sketches ≠ []) (c : K) (env : Env K) (Z : Obj K) :
    (∃ e, X.mul c = .error e) ∧ (∃ e, X.neg = .error e) ∧ ∃ e, Z.sub env X = .error e := by
  have key : ∀ c, ∃ e, X.mul c = .error e := by
    intro c
    cases h : X.mul c with
    | error e => exact ⟨e, rfl⟩
    | ok Y => exact absurd (mul_ok h) hS
  obtain ⟨e, he⟩ := key (-1)
  exact ⟨key c, ⟨e, he⟩, e, by show (X.mul (-1)).andThen _ = _; rw [he]; rfl⟩

/-- **C82, sums.** Unless `X` is a sketch, `X + Y` is a well-formed sum whose entries are the sums of the entries. -/
theorem C82_add {env : Env K} {sh : List ℕ} {X Y : Obj K} (hX : X.Good env sh) (hY : Y.Good env sh) (nX : X.NoEmpty)
    (nY : Y.NoEmpty) (hx : ∀ S, X ≠ .atom (.sketched S)) :
    ∃ Z, X.add env Y = .ok Z ∧ Z.Good env sh ∧ Z.NoEmpty ∧ ∀ i, Z.entry env i = X.entry env i + Y.entry env i := by
  have parts : ∀ W : Obj K, W.Good env sh → W.NoEmpty → W.parts ≠ [] ∧ (∀ t ∈ W.parts, t.Good env sh ∧ t.NoEmpty) ∧
      ∀ i, (W.parts.map fun t => t.entry env i).sum = W.entry env i := by
    intro W hW nW
    cases W with
    | atom A => exact ⟨by simp [Obj.parts], by simpa [Obj.parts] using ⟨hW, nW⟩, by simp [Obj.parts]⟩
    | sum s ts =>
      refine ⟨nW.1, fun t ht => ⟨?_, noEmptyL_iff.1 nW.2 t ht⟩, fun i => entryL_eq.symm⟩
      obtain ⟨rfl, h⟩ := hW
      exact goodL_iff.1 h t ht
  obtain ⟨x1, x2, x3⟩ := parts X hX nX
  obtain ⟨y1, y2, y3⟩ := parts Y hY nY
  have hadd : X.add env Y = Obj.mkSum (X.parts ++ Y.parts) := by
    match X, hx with
    | .atom (.leaf L), _ => rfl
    | .atom (.sketched S), hx => exact absurd rfl (hx S)
    | .sum s ts, _ => rfl
  rw [hadd]
  match hp : X.parts, x1, x2, x3 with
  | [], x1, _, _ => exact absurd rfl x1
  | t :: ts, _, x2, x3 =>
    have hall : ∀ u ∈ (t :: ts) ++ Y.parts, u.Good env sh ∧ u.NoEmpty := by
      intro u hu
      rcases List.mem_append.1 hu with hu | hu
      · exact x2 u hu
      · exact y2 u hu
    refine ⟨.sum t.shape ((t :: ts) ++ Y.parts), rfl, ⟨good_shape (hall t (by simp)).1, goodL_iff.2 fun u hu => (hall u hu).1⟩,
      ⟨by simp, noEmptyL_iff.2 fun u hu => (hall u hu).2⟩, fun i => ?_⟩
    show Obj.entryL env i ((t :: ts) ++ Y.parts) = _
    rw [entryL_eq, List.map_append, List.sum_append, x3, y3]

/-- **C82, negation.** -/
theorem C82_neg {env : Env K} {sh : List ℕ} {X : Obj K} (hX : X.Good env sh) (hn : X.NoEmpty) (hS : X.sketches = []) :
    ∃ Y, X.neg = .ok Y ∧ Y.Good env sh ∧ Y.NoEmpty ∧ ∀ i, Y.entry env i = - X.entry env i := by
  obtain ⟨Y, h1, h2, h3, h4⟩ := C82_mul hX hn hS (-1)
  exact ⟨Y, h1, h2, h3, fun i => by rw [h4, mul_neg_one]⟩

/-- **C82, differences.** Unless `X` is a sketch or `Y` contains one, `X - Y` is a well-formed sum with the differences of the
entries. -/
theorem C82_sub {env : Env K} {sh : List ℕ} {X Y : Obj K} (hX : X.Good env sh) (hY : Y.Good env sh) (nX : X.NoEmpty)
    (nY : Y.NoEmpty) (hx : ∀ S, X ≠ .atom (.sketched S)) (hS : Y.sketches = []) :
    ∃ Z, X.sub env Y = .ok Z ∧ Z.Good env sh ∧ Z.NoEmpty ∧ ∀ i, Z.entry env i = X.entry env i - Y.entry env i := by
  obtain ⟨W, h1, h2, h3, h4⟩ := C82_neg hY nY hS
  obtain ⟨Z, k1, k2, k3, k4⟩ := C82_add hX h2 nX h3 hx
  exact ⟨Z, by show Y.neg.andThen _ = _; rw [h1]; exact k1, k2, k3, fun i => by rw [k4, h4, sub_eq_add_neg]⟩

/-- **C82, size.** The size of a sum is the number of floating point numbers stored in all its parts, unless there is a CP
tensor among them (C17). -/
theorem C82_size {X : Obj K} (h : ∀ L ∈ X.leaves, ∃ n, L.size? = some n) :
    X.size = .ok (some ((X.leaves.map fun L => L.size?.getD 0).sum + (X.sketches.map Sketched.size).sum)) := by
  induction X using Obj.induct with
  | atom A =>
    cases A with
    | leaf L =>
      obtain ⟨n, hn⟩ := h L (by simp [Obj.leaves])
      simp [Obj.size, Atom.size?, Obj.leaves, Obj.sketches, hn]
    | sketched S => simp [Obj.size, Atom.size?, Obj.leaves, Obj.sketches]
  | sum s ts ih =>
    simp only [Obj.leaves, leavesL_eq] at h
    have : ∀ (ts : List (Obj K)) (acc : ℕ), (∀ t ∈ ts, t.size = .ok (some ((t.leaves.map fun L => L.size?.getD 0).sum
        + (t.sketches.map Sketched.size).sum))) →
        Obj.sizeLoop acc ts = .ok (acc + (((Obj.leavesL ts).map fun L => L.size?.getD 0).sum
          + ((Obj.sketchesL ts).map Sketched.size).sum)) := by
      intro ts
      induction ts with
      | nil => intro acc _; simp [Obj.sizeLoop, Obj.leavesL, Obj.sketchesL]
      | cons t ts ih' =>
        intro acc hh
        simp only [Obj.sizeLoop, hh t (by simp)]
        rw [ih' _ fun t ht => hh t (by simp [ht])]
        simp only [Obj.leavesL, Obj.sketchesL, List.map_append, List.sum_append]
        congr 1
        omega
    simp only [Obj.size]
    rw [this ts 0 fun t ht => ih t ht fun L hL => h L (List.mem_flatMap.2 ⟨t, ht, hL⟩)]
    simp [Except.map, Obj.leaves, Obj.sketches]

/-! ### The results of stream_sketch -/

/-- **C82, results of `stream_sketch`** are well-formed objects of the shape of the tensor. -/
theorem C82_stream (env : Env K) (hE : LstsqContract env) (X : Tensor K) (lrank rrank : RankArg)
    (kw : SketchKw K) (S : Sketched K) (hkw : kw.Good) (hX : X.Valid) (nX : X.NonEmpty) (hd : 2 ≤ X.shape.length)
    (h : streamSketch env X lrank rrank kw = .ok S) : (Obj.atom (.sketched S)).Good env X.shape := by
  obtain ⟨-, -, -, hs, -⟩ := C38_shapes env X lrank rrank kw S hkw hX nX hd h
  obtain ⟨Y, hY, vY, sY, -⟩ := (C40_cores env hE X lrank rrank kw S hkw hX nX hd h).2.2.1
  exact ⟨hs, Y, hY, vY, sY⟩

/-- Their transposes are the transposed tensors. -/
theorem C82_stream_T (env : Env K) (hE : PinvContract env) (X : Tensor K) (lrank rrank : RankArg)
    (kw : SketchKw K) (S : Sketched K) (hkw : kw.Good) (hX : X.Valid) (nX : X.NonEmpty) (hd : 2 ≤ X.shape.length)
    (h : streamSketch env X lrank rrank kw = .ok S) : S.Transposes env := by
  obtain ⟨-, -, -, hs, -⟩ := C38_shapes env X lrank rrank kw S hkw hX nX hd h
  obtain ⟨-, -, Y, h1, h2, -⟩ := C47_convert env hE X lrank rrank kw S hkw hX nX hd h
  exact ⟨Y, h1, h2, (C47_twice env X lrank rrank kw S hkw hX nX hd h).1.trans (congrArg _ hs.symm)⟩

/-- They store one core of shape `(left rank, mode size, right rank)` per mode and one matrix of shape `(left rank, right
rank)` per bond. -/
theorem C82_stream_size (env : Env K) (X : Tensor K) (lrank rrank : RankArg)
    (kw : SketchKw K) (S : Sketched K) (hkw : kw.Good) (hX : X.Valid) (nX : X.NonEmpty) (hd : 2 ≤ X.shape.length)
    (h : streamSketch env X lrank rrank kw = .ok S) :
    S.size = ∑ mu ∈ range X.shape.length, (1 :: S.leftRank).getD mu 0 * X.shape.getD mu 0 * (S.rightRank ++ [1]).getD mu 0
      + ∑ mu ∈ range (X.shape.length - 1), S.leftRank.getD mu 0 * S.rightRank.getD mu 0 := by
  obtain ⟨hs, -⟩ := C38_shapes env X lrank rrank kw S hkw hX nX hd h
  have key : ∀ (l : List (ND K)), (l.map fun P => P.size).sum = ∑ mu ∈ range l.length, (l.getD mu (ND.zeros [])).size := by
    intro l
    induction l with
    | nil => rfl
    | cons a l ih => rw [List.map_cons, List.sum_cons, ih, List.length_cons, sum_range_succ', add_comm]; rfl
  unfold Sketched.size
  rw [key, key, hs.psiLen, hs.omegaLen]
  congr 1
  · refine sum_congr rfl fun mu hmu => ?_
    rw [ND.size, hs.psi mu (mem_range.1 hmu)]
    simp [mul_assoc]
  · refine sum_congr rfl fun mu hmu => ?_
    rw [ND.size, hs.omega mu (mem_range.1 hmu)]
    simp

theorem toObj_good (env : Env K) {X : Tensor K} (hX : X.Valid) (hd : X.Distinct) : X.toObj.Good env X.shape := by
  cases X with
  | leaf X => exact ⟨hX, hd, rfl⟩
  | sum X =>
    refine ⟨rfl, goodL_iff.2 fun t ht => ?_⟩
    obtain ⟨t, ht', rfl⟩ := List.mem_map.1 ht
    exact ⟨(hX t ht').1, hd t ht', (hX t ht').2⟩

theorem toObj_array (env : Env K) {X : Tensor K} (hX : X.Valid) : X.toObj.array env X.shape = X.toNumpy := by
  refine (array_eq (Tensor.toNumpy_shape hX) fun i => ?_).symm
  cases X with
  | leaf X => rfl
  | sum X =>
    show X.toNumpy.get i = Obj.entryL env i _
    rw [entryL_eq, TSum.toNumpy_get hX, List.map_map]
    rfl

/-- **C82, the error of a sketch.** Let `S = stream_sketch(X, ...)` and `Y = S.to_tt()`, with positive mode sizes and ranks.
Then `S.error(X)`, `X.error(S)` and `Y.error(S)` are the Frobenius distances of the arrays, with the options of C13. -/
theorem C82_stream_error (env : Env ℝ) (hE : LstsqContract env) {la : LinAlg} (hq : la.QROk) (X : Tensor ℝ)
    (lrank rrank : RankArg) (kw : SketchKw ℝ) (S : Sketched ℝ) (hkw : kw.Good) (hX : X.Valid) (nX : X.NonEmpty)
    (dX : X.Distinct) (hd : 2 ≤ X.shape.length) (h : streamSketch env X lrank rrank kw = .ok S)
    (pX : PosTT X) (p1 : ∀ n ∈ X.shape, 0 < n) (p2 : ∀ r ∈ S.leftRank, 0 < r) (p3 : ∀ r ∈ S.rightRank, 0 < r)
    (relative rmse fast : Bool) :
    ∃ Y, S.toTT env = .ok Y ∧
      ((fast = true → normSq Y.toNumpy + normSq X.toNumpy ≠ 0) →
        (Obj.atom (.sketched S)).error env la X.toObj relative rmse fast = .ok (errorSpec Y.toNumpy X.toNumpy relative rmse) ∧
        X.toObj.error env la (.atom (.sketched S)) relative rmse fast = .ok (errorSpec X.toNumpy Y.toNumpy relative rmse)) ∧
      (Obj.atom (.leaf (.tt Y))).error env la (.atom (.sketched S)) false rmse false = .ok (.val 0) := by
  have hg := C82_stream env hE X lrank rrank kw S hkw hX nX hd h
  obtain ⟨-, -, -, -, ll, lr⟩ := C38_shapes env X lrank rrank kw S hkw hX nX hd h
  obtain ⟨Y, hY, vY, sY, rl, rY⟩ := (C40_cores env hE X lrank rrank kw S hkw hX nX hd h).2.2.1
  have hp : (Obj.atom (.sketched S)).PosTT env := by
    intro Y' hY'
    obtain rfl : Y = Y' := by rw [hY] at hY'; injection hY'
    refine ⟨by rw [sY]; exact p1, fun r hr => ?_⟩
    obtain ⟨k, hk, rfl⟩ := List.getElem_of_mem hr
    have := rY k (by omega)
    rw [List.getD_eq_getElem _ _ hk, List.getD_eq_getElem _ _ (by omega), List.getD_eq_getElem _ _ (by omega)] at this
    rw [this]
    exact lt_min (p2 _ (List.getElem_mem _)) (p3 _ (List.getElem_mem _))
  have hpX : X.toObj.PosTT env := by
    match X, pX with
    | .leaf (.tt A), p => exact p
    | .leaf (.dense A), p => trivial
    | .leaf (.sparse A), p => trivial
    | .leaf (.cp A), p => trivial
    | .leaf (.tucker A), p => trivial
    | .sum A, p => trivial
  have aS : (Obj.atom (.sketched S)).array env X.shape = Y.toNumpy :=
    (array_eq ((TT.toNumpy_shape vY).trans sY) fun i => by simp only [Obj.entry, hY]).symm
  have aX := toObj_array env hX
  have gX := toObj_good env hX dX
  have gY : (Obj.atom (.leaf (.tt Y))).Good env X.shape := ⟨vY, trivial, sY⟩
  have aY : (Obj.atom (.leaf (.tt Y))).array env X.shape = Y.toNumpy :=
    (array_eq ((TT.toNumpy_shape vY).trans sY) fun i => rfl).symm
  have hr : rmse = true → 0 < X.shape.prod := fun _ => List.prod_pos p1
  refine ⟨Y, hY, fun hf => ⟨?_, ?_⟩, ?_⟩
  · have := C82_error hq hg gX hp hpX hd relative rmse fast hr (by rw [aS, aX]; exact hf)
    rwa [aS, aX] at this
  · have := C82_error hq gX hg hpX hp hd relative rmse fast hr (by rw [aS, aX, add_comm]; exact hf)
    rwa [aS, aX] at this
  · have := C82_error hq gY hg (hp Y hY) hp hd false rmse false hr (by simp)
    rw [aS, aY] at this
    rw [this]
    simp [errorSpec, distSq, sumIdx_zero]

/-! ### Example

The sum of a sparse tensor, a sketch of it, and a nested sum. -/

example : ∃ S, streamSketch env7p (.leaf (.sparse x7)) (.int 1) (.int 2) { seed := some 3 } = .ok S ∧
    let X : Obj ℚ := .sum [2, 3, 2] [.atom (.leaf (.sparse x7)), .atom (.sketched S),
      .sum [2, 3, 2] [.atom (.leaf (.sparse x7)), .atom (.leaf (.dense (ND.zeros [2, 3, 2])))]]
    X.Good env7p [2, 3, 2] ∧ X.NoEmpty ∧ (∀ S ∈ X.sketches, S.Transposes env7p) ∧ X.sketches ≠ [] := by
  obtain ⟨S, h, -⟩ := s7p
  have g := C82_stream env7p env7p_pinv.lstsq _ _ _ _ S (SketchKw.good_none _ _ _) x7_valid trivial (by decide) h
  have t := C82_stream_T env7p env7p_pinv _ _ _ _ S (SketchKw.good_none _ _ _) x7_valid trivial (by decide) h
  have d : x7.Distinct := by simp [Sparse.Distinct, x7]
  refine ⟨S, h, ⟨rfl, ⟨x7_valid, d, rfl⟩, g, ⟨rfl, ⟨x7_valid, d, rfl⟩, ⟨trivial, trivial, rfl⟩, trivial⟩, trivial⟩,
    ⟨by simp, trivial, trivial, ⟨by simp, trivial, trivial, trivial⟩, trivial⟩, ?_, by simp [Obj.sketches, Obj.sketchesL]⟩
  simpa [Obj.sketches, Obj.sketchesL] using t

/-- The hypotheses of `C82_stream_error`, for real numbers. -/
example : ∃ S, streamSketch env61 (.leaf (.sparse x61)) (.int 1) (.int 2) { seed := some 3 } = .ok S ∧
    (∀ r ∈ S.leftRank, 0 < r) ∧ (∀ r ∈ S.rightRank, 0 < r) ∧
    (Obj.atom (.sketched S)).error env61 laChoice (Tensor.leaf (.sparse x61)).toObj true false false ≠ .error .valueError := by
  obtain ⟨S, h, hl, hr⟩ : ∃ S, streamSketch env61 (.leaf (.sparse x61)) (.int 1) (.int 2) { seed := some 3 } = .ok S ∧
    S.leftRank = [1, 1] ∧ S.rightRank = [2, 2] := ⟨_, rfl, rfl, rfl⟩
  have pl : ∀ r ∈ S.leftRank, 0 < r := by rw [hl]; simp
  have pr : ∀ r ∈ S.rightRank, 0 < r := by rw [hr]; simp
  obtain ⟨Y, -, h1, -⟩ := C82_stream_error env61 (pinvChoice_contract rfl).lstsq laChoice_qr _ _ _ _ S
    (SketchKw.good_none _ _ _) x61_valid trivial (by simp [Tensor.Distinct, Leaf.Distinct, Sparse.Distinct, x61]) (by decide) h
    trivial (by simp [Tensor.shape, Leaf.shape, x61]) pl pr true false false
  refine ⟨S, h, pl, pr, ?_⟩
  rw [(h1 (by simp)).1]
  simp

end TTS.Props
