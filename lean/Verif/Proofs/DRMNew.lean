import Verif.Proofs.Leaf
import Verif.Props.Ranks

/-! What the DRM constructors build. -/

namespace TTS

open Finset

variable {K : Type*} [CommRing K]

/-- reverse a list if the flag is set -/
def rev? {α : Type*} (t : Bool) (l : List α) : List α := if t then l.reverse else l

@[simp] theorem rev?_length {α : Type*} (t : Bool) (l : List α) : (rev? t l).length = l.length := by
  cases t <;> simp [rev?]

@[simp] theorem rev?_rev? {α : Type*} (t : Bool) (l : List α) : rev? t (rev? t l) = l := by
  cases t <;> simp [rev?]

theorem rev?_getD {α : Type*} (t : Bool) (l : List α) (k : ℕ) (hk : k < l.length) (z : α) :
    (rev? t l).getD k z = l.getD (if t then l.length - 1 - k else k) z := by
  cases t
  · rfl
  · exact reverse_getD l k hk z

theorem rev?_getD' {α : Type*} (t : Bool) (l : List α) (k : ℕ) (hk : k < l.length) (z : α) :
    (rev? t l).getD (if t then l.length - 1 - k else k) z = l.getD k z := by
  cases t
  · rfl
  · show l.reverse.getD (l.length - 1 - k) z = _
    rw [reverse_getD _ _ (by omega)]; congr 1; omega

theorem rev?_le {t : Bool} {a b : List ℕ} {n : ℕ} (ha : a.length = n) (hb : b.length = n)
    (h : ∀ k < n, a.getD k 0 ≤ b.getD k 0) : ∀ k < n, (rev? t a).getD k 0 ≤ (rev? t b).getD k 0 := by
  intro k hk
  rw [rev?_getD t a k (by omega), rev?_getD t b k (by omega), ha, hb]
  split
  · exact h _ (by omega)
  · exact h _ hk

/-- the base attributes -/
def mkBase (shape : List ℕ) (t : Bool) (seed : ℕ) (mn mx tr : List ℕ) : DRMBase where
  rank := List.zipWith (fun r1 r2 => r2 - r1) (rev? t mn) (rev? t mx)
  rankMin := rev? t mn
  rankMax := rev? t mx
  trueRank := rev? t tr
  shape := shape
  transpose := t
  seed := seed

theorem base_new (env : Env K) {rank : RankArg} {shape r : List ℕ} (t : Bool) (seed : Option ℕ)
    (kw : DRMKw) (h : processTTRank rank shape false = .ok r) :
    DRMBase.new env rank shape t seed kw = .ok (mkBase shape t ((seed.getD env.freshSeed) % (2 ^ 32 - 1))
      (kw.rankMin.getD (List.replicate (shape.length - 1) 0)) (kw.rankMax.getD r) (kw.trueRank.getD r)) := by
  unfold DRMBase.new
  rw [h]
  cases t <;> rfl

/-- core `k` of the random tensor train used by `TensorTrainDRM` -/
def drmCore (env : Env K) (own tr : List ℕ) (seed k : ℕ) : ND K :=
  ((ND.ofFn [(1 :: tr ++ [1]).getD k 0 * own.getD k 0, (1 :: tr ++ [1]).getD (k + 1) 0] fun ij =>
    env.randomNormal (env.genState seed own.length k)
      ((1 :: tr ++ [1]).getD k 0 * own.getD k 0 * (1 :: tr ++ [1]).getD (k + 1) 0)
      (ravel [(1 :: tr ++ [1]).getD k 0 * own.getD k 0, (1 :: tr ++ [1]).getD (k + 1) 0] ij)).smul
        (env.invSqrt ((1 :: tr ++ [1]).getD k 0))).reshape
    [(1 :: tr ++ [1]).getD k 0, own.getD k 0, (1 :: tr ++ [1]).getD (k + 1) 0]

/-- the object built from the base attributes -/
def buildData (env : Env K) (kind : DRMKind) (B : DRMBase) (raw : Option ℕ) (nnz : Option (List ℕ)) :
    DRMData K :=
  match kind with
  | .denseGaussian => .dense ((List.range (B.shape.length - 1)).map (denseMat env B raw))
  | .sparseGaussian => .gauss
  | .sparseSign => .sign (nnz.getD B.trueRank)
  | .tensorTrain => .tt ((List.range (B.shape.length - 1)).map (drmCore env B.ownShape B.trueRank B.seed))

theorem buildData_kind (env : Env K) (kind : DRMKind) (B : DRMBase) (raw : Option ℕ)
    (nnz : Option (List ℕ)) : (buildData env kind B raw nnz).kind = kind := by
  cases kind <;> rfl

theorem TT.random_ok (env : Env K) (own tr : List ℕ) (seed : ℕ) (h : tr.length + 1 = own.length) :
    TT.random env own (.seq tr) seed false none .preserve
      = .ok ⟨(List.range own.length).map (drmCore env own tr seed)⟩ := by
  unfold TT.random
  simp only [Option.getD_none, Bool.false_eq_true, false_and, if_false, (Props.C01_seq tr own).1 h]
  rw [mapM_ok (g := drmCore env own tr seed)]
  · rfl
  · intro k hk
    unfold TT.randomCore drmCore
    simp only [Bool.false_eq_true, false_and, if_false]
    unfold ND.reshape?
    rw [if_pos (by simp [ND.smul, mul_assoc])]

theorem ownShape_length (B : DRMBase) : B.ownShape.length = B.shape.length := by
  unfold DRMBase.ownShape; split <;> simp

theorem new_eq (env : Env K) (kind : DRMKind) {rank : RankArg} {shape r : List ℕ} (t : Bool)
    (seed : Option ℕ) (kw : DRMKw) (h : processTTRank rank shape false = .ok r)
    (htr : (kw.trueRank.getD r).length = shape.length - 1) (hd : 2 ≤ shape.length)
    (hs : kind = .denseGaussian → seed.getD 0 < 2 ^ 32) :
    let B := mkBase shape t ((seed.getD env.freshSeed) % (2 ^ 32 - 1))
      (kw.rankMin.getD (List.replicate (shape.length - 1) 0)) (kw.rankMax.getD r) (kw.trueRank.getD r)
    DRM.new env kind rank shape t seed kw = .ok ⟨B, buildData env kind B seed kw.nnz⟩ := by
  intro B
  have hB : B.shape = shape := rfl
  have hT : B.trueRank.length = shape.length - 1 := by
    show (rev? t _).length = _
    rw [rev?_length, htr]
  unfold DRM.new
  rw [base_new env t seed kw h]
  cases kind with
  | denseGaussian =>
    show (if _ then _ else _) = _
    rw [if_neg (by have := hs rfl; simp only [not_and, not_le]; intro _; exact this)]
    show Except.ok _ = Except.ok _
    unfold buildData
    have : min B.trueRank.length (B.ownShape.length - 1) = B.shape.length - 1 := by
      rw [ownShape_length, hT, hB]; simp
    congr 4
    exact congrArg List.range this
  | sparseGaussian => rfl
  | sparseSign => rfl
  | tensorTrain =>
    simp only []
    rw [TT.random_ok env _ _ _ (by rw [ownShape_length]; show B.trueRank.length + 1 = B.shape.length; rw [hT, hB]; omega)]
    show Except.ok _ = Except.ok _
    unfold buildData
    congr 3
    show List.dropLast (List.map _ (List.range B.ownShape.length)) = _
    rw [ownShape_length, ← List.map_dropLast]
    congr 1
    obtain ⟨n, hn⟩ : ∃ n, B.shape.length = n + 1 := ⟨shape.length - 1, by rw [hB]; omega⟩
    rw [hn, List.range_succ, List.dropLast_concat]; rfl

theorem denseMat_shape (env : Env K) (B : DRMBase) (raw : Option ℕ) (k : ℕ)
    (hle : B.rankMax.getD k 0 ≤ B.trueRank.getD k 0) :
    (denseMat env B raw k).shape
      = [B.rankMax.getD k 0 - B.rankMin.getD k 0, (B.ownShape.take (k + 1)).prod] := by
  unfold denseMat
  simp only []
  rw [ND.rows_shape (p := B.trueRank.getD k 0) (q := (B.ownShape.take (k + 1)).prod) rfl, Nat.min_eq_left hle]

theorem zipWith_sub_getD (a b : List ℕ) (k : ℕ) (ha : k < a.length) (hb : k < b.length) :
    (List.zipWith (fun r1 r2 => r2 - r1) a b).getD k 0 = b.getD k 0 - a.getD k 0 := by
  rw [getD_eq (by simp; omega), getD_eq hb, getD_eq ha]; simp

/-- hypotheses on the rank data passed to a constructor (in the user's order) -/
structure RankData (shape mn mx tr : List ℕ) : Prop where
  two : 2 ≤ shape.length
  lmn : mn.length = shape.length - 1
  lmx : mx.length = shape.length - 1
  ltr : tr.length = shape.length - 1
  le1 : ∀ k < shape.length - 1, mn.getD k 0 ≤ mx.getD k 0
  le2 : ∀ k < shape.length - 1, mx.getD k 0 ≤ tr.getD k 0

theorem build_wf (env : Env K) (kind : DRMKind) {shape mn mx tr : List ℕ} (t : Bool) (seed : ℕ)
    (raw : Option ℕ) (nnz : Option (List ℕ)) (h : RankData shape mn mx tr)
    (hn : ∀ l ∈ nnz, ∀ k < shape.length - 1, l.getD k 0 ≤ (rev? t tr).getD k 0) :
    DRM.WF (⟨mkBase shape t seed mn mx tr, buildData env kind (mkBase shape t seed mn mx tr) raw nnz⟩ : DRM K) := by
  have hrank : ∀ k < shape.length - 1, (mkBase shape t seed mn mx tr).rank.getD k 0
      = (rev? t mx).getD k 0 - (rev? t mn).getD k 0 := fun k hk =>
    zipWith_sub_getD _ _ _ (by rw [rev?_length, h.lmn]; exact hk) (by rw [rev?_length, h.lmx]; exact hk)
  have hle := rev?_le (t := t) h.lmx h.ltr h.le2
  refine ⟨h.two, (rev?_length t mn).trans h.lmn, (rev?_length t mx).trans h.lmx,
    (rev?_length t tr).trans h.ltr, rfl, rev?_le h.lmn h.lmx h.le1, hle, ?_⟩
  cases kind with
  | denseGaussian =>
    refine ⟨by simp [mkBase], fun k hk => ?_⟩
    have hk' : k < shape.length - 1 := hk
    show ND.shape (((List.range (shape.length - 1)).map _).getD k _) = _
    rw [getD_map_range _ _ _ _ hk', denseMat_shape _ _ _ _ (hle k hk')]
    show _ = [(mkBase shape t seed mn mx tr).rank.getD k 0, _]
    rw [hrank k hk']; rfl
  | sparseGaussian => trivial
  | sparseSign =>
    intro k hk
    show (nnz.getD _).getD k 0 ≤ (rev? t tr).getD k 0
    cases nnz with
    | none => exact le_refl _
    | some l => exact hn l rfl k hk
  | tensorTrain =>
    refine ⟨by simp [mkBase], fun k hk => ?_⟩
    have hk' : k < shape.length - 1 := hk
    show ND.shape (((List.range (shape.length - 1)).map _).getD k _) = _
    rw [getD_map_range _ _ _ _ hk']
    show [_, _, _] = [_, _, _]
    have hl : (rev? t tr).length = shape.length - 1 := by rw [rev?_length, h.ltr]
    have e1 : (1 :: rev? t tr ++ [1]).getD k 0 = (1 :: rev? t tr).getD k 0 :=
      List.getD_append _ _ _ _ (by simp only [List.length_cons]; omega)
    have e2 : (1 :: rev? t tr ++ [1]).getD (k + 1) 0 = (rev? t tr).getD k 0 := by
      show (rev? t tr ++ [1]).getD k 0 = _
      exact List.getD_append _ _ _ _ (by omega)
    exact congrArg₂ (fun x y => [x, (mkBase shape t seed mn mx tr).ownShape.getD k 0, y]) e1 e2

end TTS
