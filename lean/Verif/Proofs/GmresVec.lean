import Mathlib.Analysis.InnerProductSpace.PiL2
import Verif.Proofs.Gmres

/-!
# Arrays as vectors, maps as operators
-/

namespace TTS.Props

open Finset Spec

/-- arrays of shape `s` as vectors -/
abbrev E (s : List ℕ) := EuclideanSpace ℝ {i // i ∈ idxSet s}

/-- restriction to the valid multi-indices -/
noncomputable def vec (s : List ℕ) : (List ℕ → ℝ) →ₗ[ℝ] E s where
  toFun f := WithLp.toLp 2 fun i => f i.1
  map_add' _ _ := rfl
  map_smul' _ _ := rfl

/-- extension by zero -/
noncomputable def ext (s : List ℕ) : E s →ₗ[ℝ] (List ℕ → ℝ) where
  toFun v i := if h : i ∈ idxSet s then v ⟨i, h⟩ else 0
  map_add' v w := by
    funext i
    by_cases h : i ∈ idxSet s <;> simp [h]
  map_smul' c v := by
    funext i
    by_cases h : i ∈ idxSet s <;> simp [h]

theorem vec_apply (s : List ℕ) (f : List ℕ → ℝ) (i : {i // i ∈ idxSet s}) : vec s f i = f i.1 := rfl

theorem vec_eq {s : List ℕ} {f g : List ℕ → ℝ} : vec s f = vec s g ↔ ∀ i, InR s i → f i = g i := by
  constructor
  · intro h i hi
    have := congrArg (fun v : E s => v ⟨i, mem_idxSet.2 hi⟩) h
    exact this
  · intro h
    ext i
    exact h i.1 (mem_idxSet.1 i.2)

theorem vec_ext (s : List ℕ) (v : E s) : vec s (ext s v) = v := by
  ext i
  show (if h : i.1 ∈ idxSet s then v ⟨i.1, h⟩ else 0) = v i
  rw [dif_pos i.2]

theorem ext_vec {s : List ℕ} (f : List ℕ → ℝ) {i : List ℕ} (hi : InR s i) : ext s (vec s f) i = f i := by
  have := vec_ext s (vec s f)
  exact vec_eq.1 this i hi

theorem inner_vec (s : List ℕ) (f g : List ℕ → ℝ) : inner ℝ (vec s f) (vec s g) = sumIdx s fun i => f i * g i := by
  rw [PiLp.inner_apply, sumIdx_eq_sum, ← Finset.sum_coe_sort (idxSet s) fun i => f i * g i]
  refine sum_congr rfl fun i _ => ?_
  simp only [vec_apply, RCLike.inner_apply, conj_trivial]
  ring

theorem norm_vec_sq (s : List ℕ) (f : List ℕ → ℝ) : ‖vec s f‖ ^ 2 = sumIdx s fun i => f i ^ 2 := by
  rw [← real_inner_self_eq_norm_sq, inner_vec]
  exact sumIdx_congr fun i _ => by ring

theorem fnorm_eq (s : List ℕ) (f : List ℕ → ℝ) : fnorm s f = ‖vec s f‖ := by
  rw [fnorm, ← norm_vec_sq, Real.sqrt_sq (norm_nonneg _)]

/-! ### Maps -/

/-- the train with entry 1 at `j` and 0 elsewhere -/
noncomputable def unitTT (s j : List ℕ) : TT ℝ :=
  ⟨List.zipWith (fun n t => ND.ofFn [1, n, 1] fun i => if i.getD 1 0 = t then 1 else 0) s j⟩

theorem unitTT_cores : ∀ {s j : List ℕ}, InR s j →
    TTChain 1 (unitTT s j).cores 1 ∧ (unitTT s j).shape = s ∧ (∀ C ∈ (unitTT s j).cores, C.dim 0 = 1) ∧
      ∀ i, InR s i → ttVal (unitTT s j).cores i 0 0 = if i = j then 1 else 0
  | [], [], _ => ⟨rfl, rfl, by simp [unitTT], fun i hi => by
      cases i with
      | nil => rfl
      | cons _ _ => exact absurd hi (by simp [InR])⟩
  | [], _ :: _, h => absurd h (by simp [InR])
  | _ :: _, [], h => absurd h (by simp [InR])
  | n :: s, t :: j, h => by
    obtain ⟨h0, h1⟩ := h
    obtain ⟨c1, c2, c3, c4⟩ := unitTT_cores h1
    have hc : (unitTT (n :: s) (t :: j)).cores
        = (ND.ofFn [1, n, 1] fun i => if i.getD 1 0 = t then 1 else 0) :: (unitTT s j).cores := rfl
    refine ⟨?_, ?_, ?_, ?_⟩
    · rw [hc]; exact ⟨n, 1, rfl, c1⟩
    · show List.map _ (unitTT (n :: s) (t :: j)).cores = _
      rw [hc, List.map_cons]
      exact congrArg₂ List.cons rfl c2
    · rw [hc]
      intro C hC
      rcases List.mem_cons.1 hC with rfl | hC
      · rfl
      · exact c3 C hC
    · intro i hi
      cases i with
      | nil => exact absurd hi (by simp [InR])
      | cons a i =>
        obtain ⟨g0, g1⟩ := hi
        rw [hc]
        show ∑ u ∈ range 1, (ND.ofFn [1, n, 1] fun i => if i.getD 1 0 = t then (1 : ℝ) else 0).get [0, a, u] *
          ttVal (unitTT s j).cores i u 0 = _
        rw [sum_range_one, ND.ofFn_get (by simp [InR, g0]), c4 i g1]
        by_cases e1 : a = t <;> by_cases e2 : i = j <;> simp [e1, e2]

theorem unitTT_ok {s j : List ℕ} (hs : s ≠ []) (h : InR s j) : (unitTT s j).Valid ∧ (unitTT s j).Pos ∧
    (unitTT s j).shape = s ∧ ∀ i, InR s i → (unitTT s j).toNumpy.get i = if i = j then 1 else 0 := by
  obtain ⟨c1, c2, c3, c4⟩ := unitTT_cores h
  have hv : (unitTT s j).Valid := by
    refine ⟨fun e => hs ?_, c1⟩
    rw [← c2, TT.shape, e]; rfl
  refine ⟨hv, ⟨?_, ?_⟩, c2, fun i hi => ?_⟩
  · rw [c2]
    intro n hn
    obtain ⟨k, hk, rfl⟩ := List.mem_iff_getElem.1 hn
    have := (ND.inR_iff_getD.1 h).2 k hk
    rw [List.getD_eq_getElem _ _ hk] at this
    omega
  · intro r hr
    obtain ⟨C, hC, rfl⟩ := List.mem_map.1 hr
    rw [c3 C (List.mem_of_mem_tail hC)]
    exact one_pos
  · rw [TT.toNumpy_get hv]
    exact c4 i hi

/-- the matrix of a user's map is unique -/
theorem kernel_unique {u : UserMap} (hs : u.inShape ≠ []) {M N : List ℕ → List ℕ → ℝ} (hM : u.Kernel M) (hN : u.Kernel N)
    {j k : List ℕ} (hj : InR u.inShape j) (hk : InR u.outShape k) : M j k = N j k := by
  obtain ⟨v1, v2, v3, v4⟩ := unitTT_ok hs hj
  obtain ⟨Y, y1, _, _, _, y5⟩ := hM _ v1 v2 v3
  obtain ⟨Z, z1, _, _, _, z5⟩ := hN _ v1 v2 v3
  rw [y1] at z1
  injection z1 with z1
  subst z1
  have key : ∀ L : List ℕ → List ℕ → ℝ,
      (sumIdx u.inShape fun i => L i k * (unitTT u.inShape j).toNumpy.get i) = L j k := by
    intro L
    rw [sumIdx_congr (g := fun i => if i = j then L i k else 0) fun i hi => by rw [v4 i hi]; split_ifs <;> simp]
    exact sumIdx_ite_eq hj _
  have := (y5 k hk).symm.trans (z5 k hk)
  rwa [key, key] at this

/-- Every good map of a shape to itself is a linear operator. -/
theorem maps_op {la : LinAlg2} {m : LinMap} (hm : m.Ok la) {s : List ℕ} (hi : m.inShape = s) (ho : m.outShape = s) :
    ∃ L : E s →ₗ[ℝ] E s, ∀ f g, m.Maps f g ↔ vec s g = L (vec s f) := by
  cases m with
  | mpo A =>
    have hi : A.inShape = s := hi
    have ho : A.outShape = s := ho
    let T : (List ℕ → ℝ) →ₗ[ℝ] (List ℕ → ℝ) :=
      { toFun := fun f k => sumIdx s fun j => A.toNumpy.get (interleave j k) * f j
        map_add' := by
          intro f g; funext k
          rw [Pi.add_apply, ← sumIdx_add]
          exact sumIdx_congr fun j _ => by rw [Pi.add_apply]; ring
        map_smul' := by
          intro c f; funext k
          rw [Pi.smul_apply, smul_eq_mul, RingHom.id_apply, mul_sumIdx]
          exact sumIdx_congr fun j _ => by rw [Pi.smul_apply, smul_eq_mul]; ring }
    refine ⟨(vec s).comp (T.comp (ext s)), fun f g => ?_⟩
    have hT : (vec s).comp (T.comp (ext s)) (vec s f) = vec s (T f) := by
      show vec s (T (ext s (vec s f))) = _
      refine vec_eq.2 fun k _ => ?_
      exact sumIdx_congr fun j hj => by rw [ext_vec f hj]
    rw [hT, vec_eq]
    simp only [LinMap.Maps, ho, hi]
    rfl
  | precond P =>
    obtain ⟨A, n, e, hA, hdet, hmo, hn⟩ := hm
    have hs : P.shape = s := hi
    have hPA : P.A = A := by rw [e]; rfl
    obtain ⟨G, hG1, hG2⟩ := exists_inv hdet
    let T : (List ℕ → ℝ) →ₗ[ℝ] (List ℕ → ℝ) :=
      { toFun := fun f k => modeMul G n P.mode f k
        map_add' := by
          intro f g; funext k
          simp only [modeMul, Pi.add_apply, mul_add, sum_add_distrib]
        map_smul' := by
          intro c f; funext k
          simp only [modeMul, Pi.smul_apply, smul_eq_mul, RingHom.id_apply, mul_sum]
          exact sum_congr rfl fun t _ => by ring }
    have hset : ∀ k, InR s k → ∀ t < n, InR s (k.set P.mode t) := by
      intro k hk t ht
      rw [ND.inR_iff_getD] at hk ⊢
      refine ⟨by rw [List.length_set]; exact hk.1, fun q hq => ?_⟩
      by_cases hqm : q = P.mode
      · subst hqm
        have hql : P.mode < k.length := by rw [hk.1]; exact hq
        rw [List.getD_eq_getElem _ _ (by rw [List.length_set]; exact hql), List.getElem_set_self, ← hs, hn]
        exact ht
      · have := hk.2 q hq
        have hql : q < k.length := by rw [hk.1]; exact hq
        rw [List.getD_eq_getElem _ _ (by rw [List.length_set]; exact hql), List.getElem_set_ne (Ne.symm hqm)]
        rw [List.getD_eq_getElem _ _ hql] at this
        exact this
    refine ⟨(vec s).comp (T.comp (ext s)), fun f g => ?_⟩
    have hT : (vec s).comp (T.comp (ext s)) (vec s f) = vec s (T f) := by
      show vec s (T (ext s (vec s f))) = _
      refine vec_eq.2 fun k hk => ?_
      show modeMul G n P.mode (ext s (vec s f)) k = modeMul G n P.mode f k
      unfold modeMul
      exact sum_congr rfl fun t ht => by rw [ext_vec f (hset k hk t (mem_range.1 ht))]
    rw [hT, vec_eq]
    simp only [LinMap.Maps]
    rw [hPA, hn, hs]
    constructor
    · intro h k hk
      exact (modeMul_modeMul (A := fun i j => A.get [i, j]) (f := g) (g := f) hG1 (by rw [← hs]; exact hmo)
        (by rw [← hs]; exact hn) h hk).symm
    · intro h k hk
      exact (modeMul_modeMul (G := fun i j => A.get [i, j]) (A := G) (f := f) (g := g) hG2 (by rw [← hs]; exact hmo)
        (by rw [← hs]; exact hn) h hk).symm
  | user u =>
    obtain ⟨hne, M, hM⟩ := hm
    have hi : u.inShape = s := hi
    have ho : u.outShape = s := ho
    let T : (List ℕ → ℝ) →ₗ[ℝ] (List ℕ → ℝ) :=
      { toFun := fun f k => sumIdx s fun j => M j k * f j
        map_add' := by
          intro f g; funext k
          rw [Pi.add_apply, ← sumIdx_add]
          exact sumIdx_congr fun j _ => by rw [Pi.add_apply]; ring
        map_smul' := by
          intro c f; funext k
          rw [Pi.smul_apply, smul_eq_mul, RingHom.id_apply, mul_sumIdx]
          exact sumIdx_congr fun j _ => by rw [Pi.smul_apply, smul_eq_mul]; ring }
    refine ⟨(vec s).comp (T.comp (ext s)), fun f g => ?_⟩
    have hT : (vec s).comp (T.comp (ext s)) (vec s f) = vec s (T f) := by
      show vec s (T (ext s (vec s f))) = _
      refine vec_eq.2 fun k _ => ?_
      exact sumIdx_congr fun j hj => by rw [ext_vec f hj]
    rw [hT, vec_eq]
    constructor
    · rintro ⟨N, hN, h⟩ k hk
      rw [h k (by rw [ho]; exact hk), hi]
      exact sumIdx_congr fun j hj => by rw [kernel_unique hne hN hM (by rw [hi]; exact hj) (by rw [ho]; exact hk)]
    · intro h
      exact ⟨M, hM, fun k hk => by rw [h k (by rw [← ho]; exact hk), hi]; rfl⟩

theorem mapsSum_op {la : LinAlg2} {s : List ℕ} : ∀ {maps : List LinMap}, (∀ m ∈ maps, m.Ok la) →
    (∀ m ∈ maps, m.inShape = s ∧ m.outShape = s) →
    ∃ L : E s →ₗ[ℝ] E s, (∀ f g, MapsSum maps s f g ↔ vec s g = L (vec s f)) ∧
      ∀ f (G : LinMap → List ℕ → ℝ), (∀ m ∈ maps, m.Maps f (G m)) →
        vec s (fun k => (maps.map fun m => G m k).sum) = L (vec s f) := by
  classical
  intro maps h1 h2
  have key : ∀ m : {m // m ∈ maps}, ∃ L : E s →ₗ[ℝ] E s, ∀ f g, m.1.Maps f g ↔ vec s g = L (vec s f) :=
    fun m => maps_op (h1 m.1 m.2) (h2 m.1 m.2).1 (h2 m.1 m.2).2
  choose Lm hLm using key
  let Lf : LinMap → E s →ₗ[ℝ] E s := fun m => if h : m ∈ maps then Lm ⟨m, h⟩ else 0
  have hL : ∀ m ∈ maps, ∀ f g, m.Maps f g ↔ vec s g = Lf m (vec s f) := by
    intro m hm f g
    show _ ↔ vec s g = (if h : m ∈ maps then Lm ⟨m, h⟩ else 0) (vec s f)
    rw [dif_pos hm]
    exact hLm ⟨m, hm⟩ f g
  have hsum : ∀ (l : List LinMap), (∀ m ∈ l, m ∈ maps) → ∀ f (G : LinMap → List ℕ → ℝ), (∀ m ∈ l, m.Maps f (G m)) →
      vec s (fun k => (l.map fun m => G m k).sum) = (l.map Lf).sum (vec s f) := by
    intro l
    induction l with
    | nil =>
      intro _ f G _
      simp only [List.map_nil, List.sum_nil, LinearMap.zero_apply]
      exact (vec s).map_zero
    | cons m l ih =>
      intro hl f G hG
      rw [List.map_cons, List.sum_cons, LinearMap.add_apply, ← ih (fun m' hm' => hl m' (by simp [hm'])) f G
        fun m' hm' => hG m' (by simp [hm']), ← (hL m (hl m (by simp)) f (G m)).1 (hG m (by simp)), ← map_add]
      rfl
  refine ⟨(maps.map Lf).sum, fun f g => ?_, fun f G hG => hsum maps (fun _ h => h) f G hG⟩
  constructor
  · rintro ⟨G, g1, g2⟩
    rw [← hsum maps (fun _ h => h) f G g1]
    exact vec_eq.2 g2
  · intro h
    have g1 : ∀ m ∈ maps, m.Maps f (ext s (Lf m (vec s f))) := fun m hm => (hL m hm f _).2 (vec_ext s _)
    refine ⟨fun m => ext s (Lf m (vec s f)), g1, ?_⟩
    rw [← hsum maps (fun _ h => h) f _ g1] at h
    exact vec_eq.1 h

theorem precMaps_op {la : LinAlg2} {s : List ℕ} {P : Option Precond}
    (hP : ∀ p, P = some p → (LinMap.precond p).Ok la ∧ p.shape = s) :
    ∃ L : E s →ₗ[ℝ] E s, ∀ f g, PrecMaps P s f g ↔ vec s g = L (vec s f) := by
  cases P with
  | none => exact ⟨LinearMap.id, fun f g => vec_eq.symm⟩
  | some p => exact maps_op (hP p rfl).1 (hP p rfl).2 (hP p rfl).2

/-! ### Tensor trains -/

/-- well formed, positive sizes and ranks, of shape `s` -/
def Good (s : List ℕ) (t : TT ℝ) : Prop := t.Valid ∧ t.Pos ∧ t.shape = s

noncomputable def tv (s : List ℕ) (t : TT ℝ) : E s := vec s t.toNumpy.get

noncomputable def tvs (s : List ℕ) (ts : List (TT ℝ)) : E s := (ts.map (tv s)).sum

theorem tvs_eq {s : List ℕ} {ts : List (TT ℝ)} (h : TTList ts s) : vec s (ttSum ts).toNumpy.get = tvs s ts := by
  have key : ∀ l : List (TT ℝ), vec s (fun k => (l.map fun t => t.toNumpy.get k).sum) = tvs s l := by
    intro l
    induction l with
    | nil => simp only [List.map_nil, List.sum_nil, tvs]; exact (vec s).map_zero
    | cons t l ih =>
      rw [tvs, List.map_cons, List.sum_cons]
      show _ = _ + tvs s l
      rw [← ih, tv, ← map_add]
      rfl
  rw [← key]
  exact vec_eq.2 fun k _ => ttSum_get h k

theorem good_mul {s : List ℕ} {t : TT ℝ} (h : Good s t) (c : ℝ) : Good s (t.mul c) ∧ tv s (t.mul c) = c • tv s t := by
  have hv := Leaf.mul_valid (X := .tt t) h.1 c
  have hs := Leaf.mul_shape (X := .tt t) h.1 c
  have hg := Leaf.mul_get (X := .tt t) h.1 c
  have hr : (t.mul c).rank = t.rank := by
    have e : (t.mul c).cores.map (fun C => C.dim 0) = t.cores.map fun C => C.dim 0 := by
      rw [TT.mul_cores h.1.1]
      conv_rhs => rw [← List.dropLast_append_getLast h.1.1]
      simp [ND.dim]
    show (t.mul c).cores.tail.map _ = t.cores.tail.map _
    rw [List.map_tail, List.map_tail, e]
  have hs : (t.mul c).shape = t.shape := hs
  refine ⟨⟨hv, ⟨by rw [hs]; exact h.2.1.1, by rw [hr]; exact h.2.1.2⟩, by rw [hs]; exact h.2.2⟩, ?_⟩
  rw [tv, tv, ← map_smul]
  refine vec_eq.2 fun i _ => ?_
  have := hg i
  show (t.mul c).toNumpy.get i = c * t.toNumpy.get i
  rw [mul_comm]
  exact this

theorem good_dot {s : List ℕ} {t u : TT ℝ} (ht : Good s t) (hu : Good s u) : t.dot u = inner ℝ (tv s t) (tv s u) := by
  rw [TT.dot_eq ht.1 hu.1 (ht.2.2.trans hu.2.2.symm), tv, tv, inner_vec, innerND, TT.toNumpy_shape ht.1, ht.2.2]

theorem good_norm {la : LinAlg} (hq : la.QROk) {s : List ℕ} {t : TT ℝ} (ht : Good s t) : t.norm la = .ok ‖tv s t‖ := by
  rw [C12_tt hq ht.1 ht.2.1, normSq, TT.toNumpy_shape ht.1, ht.2.2, ← norm_vec_sq, Real.sqrt_sq (norm_nonneg _), tv]

theorem ttList_cons {s : List ℕ} {t : TT ℝ} {ts : List (TT ℝ)} (ht : Good s t) (hts : ∀ u ∈ ts, Good s u) :
    TTList (t :: ts) s :=
  ⟨by simp, fun u hu => by
    rcases List.mem_cons.1 hu with rfl | hu
    · exact ht
    · exact hts u hu⟩

theorem tvs_neg {s : List ℕ} : ∀ {ts : List (TT ℝ)}, (∀ u ∈ ts, Good s u) →
    tvs s (ts.map fun t => TT.mul t (-1)) = - tvs s ts
  | [], _ => by simp [tvs]
  | t :: ts, h => by
    have ih := tvs_neg (ts := ts) fun u hu => h u (by simp [hu])
    simp only [tvs, List.map_cons, List.sum_cons] at ih ⊢
    rw [ih, (good_mul (h t (by simp)) (-1)).2, neg_smul, one_smul, neg_add]

/-- sums of scaled trains -/
theorem tvs_zip {s : List ℕ} : ∀ {ts : List (TT ℝ)} {cs : List ℝ}, (∀ u ∈ ts, Good s u) → ts.length = cs.length →
    (∀ u ∈ List.zipWith TT.mul ts cs, Good s u) ∧
    tvs s (List.zipWith TT.mul ts cs) = ∑ k ∈ range cs.length, cs.getD k 0 • tv s (ts.getD k ⟨[]⟩)
  | [], [], _, _ => by simp [tvs]
  | t :: ts, c :: cs, h, hl => by
    obtain ⟨i1, i2⟩ := tvs_zip (ts := ts) (cs := cs) (fun u hu => h u (by simp [hu])) (by simpa using hl)
    obtain ⟨m1, m2⟩ := good_mul (h t (by simp)) c
    refine ⟨?_, ?_⟩
    · intro u hu
      rw [List.zipWith_cons_cons] at hu
      rcases List.mem_cons.1 hu with rfl | hu
      · exact m1
      · exact i1 u hu
    · rw [List.zipWith_cons_cons, List.length_cons, sum_range_succ']
      simp only [List.getD_cons_succ, List.getD_cons_zero]
      rw [← i2, tvs, List.map_cons, List.sum_cons, m2, add_comm]
      rfl

end TTS.Props
