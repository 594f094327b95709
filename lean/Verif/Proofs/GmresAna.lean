import Verif.Proofs.GmresRun

/-!
# The Arnoldi relations of a GMRES run
-/

namespace TTS.Props

open Finset Spec

/-- what the loop's constants have to satisfy -/
structure CfgOk (c : GmresCfg) (s rk : List ℕ) (L : E s →ₗ[ℝ] E s) : Prop where
  qr : c.la.QROk
  ap : ∀ x, Good s x → ∃ ys, c.ap x = .ok ys ∧ TTList ys s ∧ tvs s ys = L (tv s x)
  rnd : ∀ k ts eps, TTList ts s → ∃ Y, c.rnd k ts eps = .ok Y ∧ Good s Y ∧ (ts.length ≠ 1 → RanksLe Y.rank rk)

/-- vector `k` of the basis -/
noncomputable def bv (s : List ℕ) (nu : List (TT ℝ)) (k : ℕ) : E s := tv s (nu.getD k ⟨[]⟩)

/-- iteration `k`, with its two roundings -/
structure Iter (s : List ℕ) (L : E s →ₗ[ℝ] E s) (sym : Bool) (nu : List (TT ℝ)) (H : ND ℝ) (c1 c2 : RoundCall) (k : ℕ) :
    Prop where
  sum1 : tvs s c1.summands = L (bv s nu k)
  sum2 : tvs s c2.summands = tv s c1.result - ∑ i ∈ range (k + 1), H.get [i, k] • bv s nu i
  low : ∀ i < minJ sym k, H.get [i, k] = 0
  coef : ∀ i, minJ sym k ≤ i → i ≤ k → H.get [i, k] = inner ℝ (tv s c1.result) (bv s nu i)
  next : tv s c2.result = H.get [k + 1, k] • bv s nu (k + 1)
  norm : H.get [k + 1, k] = ‖tv s c2.result‖

theorem Iter.congr {s : List ℕ} {L : E s →ₗ[ℝ] E s} {sym : Bool} {nu nu' : List (TT ℝ)} {H H' : ND ℝ} {c1 c2 : RoundCall}
    {k : ℕ} (h : Iter s L sym nu H c1 c2 k) (hn : ∀ i ≤ k + 1, nu'.getD i ⟨[]⟩ = nu.getD i ⟨[]⟩)
    (hH : ∀ i, H'.get [i, k] = H.get [i, k]) : Iter s L sym nu' H' c1 c2 k := by
  have hb : ∀ i ≤ k + 1, bv s nu' i = bv s nu i := fun i hi => by rw [bv, bv, hn i hi]
  refine ⟨by rw [hb k (by omega)]; exact h.sum1, ?_, fun i hi => by rw [hH]; exact h.low i hi, ?_, ?_, ?_⟩
  · rw [h.sum2]
    congr 1
    refine sum_congr rfl fun i hi => ?_
    rw [hH, hb i (by have := mem_range.1 hi; omega)]
  · intro i h1 h2
    rw [hH, hb i (by omega)]
    exact h.coef i h1 h2
  · rw [hH, hb (k + 1) le_rfl]; exact h.next
  · rw [hH]; exact h.norm

structure Ana (c : GmresCfg) (N : ℕ) (s rk : List ℕ) (L : E s →ₗ[ℝ] E s) (j : ℕ) (st : GmresSt) : Prop where
  nu : st.nu.length = j + 1
  iters : st.iters = j
  good : ∀ t ∈ st.nu, Good s t
  fin : st.finite ↔ if j = 0 then c.beta ≠ 0 else st.H.get [j, j - 1] ≠ 0
  beta : 0 < j → c.beta ≠ 0
  sub : ∀ k, k + 1 < j → st.H.get [k + 1, k] ≠ 0
  shape : st.H.shape = [N + 1, N]
  zero : ∀ i t, t + 1 < i ∨ j ≤ t → st.H.get [i, t] = 0
  ranks : ∀ r ∈ st.hist.rank, RanksLe r rk
  calls : st.calls.length = 2 * j + 1
  call : ∀ cl ∈ st.calls, TTList cl.summands s ∧ Good s cl.result
  it : ∀ k < j, Iter s L c.symmetric st.nu st.H (st.calls.getD (2 * k + 1) noCall) (st.calls.getD (2 * k + 2) noCall) k

/-- the Gram-Schmidt sum -/
theorem tvs_gs {s : List ℕ} (H : ND ℝ) (j : ℕ) : ∀ (l : List (TT ℝ)) (m : ℕ), (∀ u ∈ l, Good s u) →
    (∀ u ∈ List.zipWith (fun v i => TT.mul (TT.mul v (H.get [i, j])) (-1)) l (List.range' m l.length), Good s u) ∧
    tvs s (List.zipWith (fun v i => TT.mul (TT.mul v (H.get [i, j])) (-1)) l (List.range' m l.length))
      = - ∑ q ∈ range l.length, H.get [m + q, j] • tv s (l.getD q ⟨[]⟩)
  | [], m, _ => by simp [tvs]
  | t :: l, m, h => by
    obtain ⟨i1, i2⟩ := tvs_gs H j l (m + 1) fun u hu => h u (by simp [hu])
    obtain ⟨m1, m2⟩ := good_mul (h t (by simp)) (H.get [m, j])
    obtain ⟨m3, m4⟩ := good_mul m1 (-1)
    rw [List.length_cons, List.range'_succ, List.zipWith_cons_cons]
    refine ⟨?_, ?_⟩
    · intro u hu
      rcases List.mem_cons.1 hu with rfl | hu
      · exact m3
      · exact i1 u hu
    · rw [tvs, List.map_cons, List.sum_cons]
      show _ + tvs s _ = _
      rw [i2, m4, m2, sum_range_succ']
      simp only [List.getD_cons_succ, List.getD_cons_zero, add_zero]
      rw [neg_add, neg_smul, one_smul, add_comm]
      congr 2
      exact sum_congr rfl fun q _ => by rw [show m + 1 + q = m + (q + 1) by ring]

theorem Ana.step {c : GmresCfg} {N : ℕ} {s rk : List ℕ} {L : E s →ₗ[ℝ] E s} (hc : CfgOk c s rk L) {j : ℕ}
    {st st' : GmresSt} {b : Bool} (h : Ana c N s rk L j st) (hj : j < N) (hs : gmresStep c j st = .ok (st', b)) :
    Ana c N s rk L (j + 1) st' := by
  obtain ⟨hfin, hres, wSum, w, w', hh, res, y, e1, e2, e3, e4, e5, hb, rfl⟩ := step_inv hs
  have hm := minJ_le c.symmetric j
  set m := minJ c.symmetric j with hmdef
  -- the matrix
  obtain ⟨s1, s2⟩ := newH_spec (c := c) (st := st) w hh h.shape hj
  have old : ∀ i t, t ≠ j → (newH c j st w hh).get [i, t] = st.H.get [i, t] := fun i t ht => by rw [s2, if_neg ht]
  have hcol : ∀ i ≤ j, (hColumn st.H w st.nu m j).get [i, j] = (newH c j st w hh).get [i, j] := by
    intro i hi
    obtain ⟨h1, h2⟩ := hColumn_fold w st.nu j N hj (j + 1 - m) m st.H h.shape (by omega)
    rw [newH, ND.setEntry_get (by rw [hColumn, h1, inR2]; omega), if_neg (by simp; omega)]
  -- the last basis vector
  have hlast : st.nu.getLastD ⟨[]⟩ = st.nu.getD j ⟨[]⟩ := by
    have hne : st.nu ≠ [] := by intro h0; have := h.nu; rw [h0] at this; simp at this
    rw [List.getLastD_eq_getLast?, List.getLast?_eq_getElem?, List.getD_eq_getElem?_getD]
    have := h.nu
    congr 2
    omega
  have gd : ∀ k ≤ j, Good s (st.nu.getD k ⟨[]⟩) := by
    intro k hk
    have := h.nu
    rw [List.getD_eq_getElem _ _ (by omega)]
    exact h.good _ (List.getElem_mem _)
  obtain ⟨ys, a1, a2, a3⟩ := hc.ap _ (gd j le_rfl)
  rw [hlast, a1] at e1
  injection e1 with e1
  subst e1
  obtain ⟨w1, b1, b2, -⟩ := hc.rnd (2 * j + 1) ys (some (c.tol / (st.res / c.beta))) a2
  rw [b1] at e2
  injection e2 with e2
  subst e2
  -- Gram-Schmidt
  have hll : ((st.nu.take (j + 1)).drop m).length = j + 1 - m := by
    rw [List.length_drop, List.length_take, h.nu]; omega
  obtain ⟨g1, g2⟩ := tvs_gs (s := s) (hColumn st.H w1 st.nu m j) j ((st.nu.take (j + 1)).drop m) m (by
    intro u hu
    exact h.good u (List.mem_of_mem_take (List.mem_of_mem_drop hu)))
  rw [hll] at g1 g2
  have gsl : TTList (gramSchmidt (hColumn st.H w1 st.nu m j) w1 st.nu m j) s := ttList_cons b2 g1
  have gslen : (gramSchmidt (hColumn st.H w1 st.nu m j) w1 st.nu m j).length ≠ 1 := by
    simp only [gramSchmidt, List.length_cons, List.length_zipWith, hll, List.length_range']
    omega
  obtain ⟨w2, c1, c2, c3⟩ := hc.rnd (2 * j + 2) _ (some (c.tol / (st.res / c.beta))) gsl
  rw [c1] at e3
  injection e3 with e3
  subst e3
  rw [good_norm hc.qr c2] at e4
  injection e4 with e4
  -- the new vector
  obtain ⟨n1, n2⟩ := good_mul c2 (1 / hh)
  have hnext : tv s w2 = hh • tv s (w2.mul (1 / hh)) := by
    rw [n2, smul_smul]
    by_cases h0 : hh = 0
    · rw [h0] at e4
      rw [norm_eq_zero.1 e4, smul_zero]
    · rw [mul_one_div_cancel h0, one_smul]
  have hnu : ∀ i ≤ j, (st.nu ++ [w2.mul (1 / hh)]).getD i ⟨[]⟩ = st.nu.getD i ⟨[]⟩ := by
    intro i hi
    rw [List.getD_append _ _ _ _ (by rw [h.nu]; omega)]
  have hnu' : (st.nu ++ [w2.mul (1 / hh)]).getD (j + 1) ⟨[]⟩ = w2.mul (1 / hh) := by
    rw [List.getD_append_right _ _ _ _ (by rw [h.nu]), h.nu]
    simp
  have hsubj : (newH c j st w1 hh).get [j + 1, j] = hh := by rw [s2, if_pos rfl, if_pos rfl]
  have hlow : ∀ i < m, (newH c j st w1 hh).get [i, j] = 0 := by
    intro i hi
    rw [s2, if_pos rfl, if_neg (by omega), if_neg (by omega)]
    exact h.zero _ _ (Or.inr le_rfl)
  have hgs : tvs s (gramSchmidt (hColumn st.H w1 st.nu m j) w1 st.nu m j)
      = tv s w1 - ∑ i ∈ range (j + 1), (newH c j st w1 hh).get [i, j] • bv s st.nu i := by
    rw [gramSchmidt, tvs, List.map_cons, List.sum_cons]
    show _ + tvs s _ = _
    rw [g2, ← sub_eq_add_neg]
    congr 1
    have hj1 : j + 1 = m + (j + 1 - m) := by omega
    conv_rhs => rw [hj1, sum_range_add]
    rw [sum_eq_zero (s := range m) fun i hi => by rw [hlow i (mem_range.1 hi), zero_smul], zero_add]
    refine sum_congr rfl fun q hq => ?_
    have hq := mem_range.1 hq
    rw [hcol (m + q) (by omega), bv]
    congr 2
    rw [List.getD_eq_getElem?_getD, List.getElem?_drop, List.getElem?_take, if_pos (by omega), ← List.getD_eq_getElem?_getD]
  refine ⟨?_, rfl, ?_, ?_, ?_, ?_, s1, ?_, ?_, ?_, ?_, ?_⟩
  · simp [h.nu]
  · intro t ht
    rcases List.mem_append.1 ht with ht | ht
    · exact h.good t ht
    · rw [List.mem_singleton] at ht; subst ht; exact n1
  · show hh ≠ 0 ↔ _
    rw [if_neg (by omega), Nat.add_sub_cancel]
    show _ ↔ (newH c j st w1 hh).get [j + 1, j] ≠ 0
    rw [hsubj]
  · intro _
    by_cases hj0 : j = 0
    · have := h.fin.1 hfin
      rw [if_pos hj0] at this
      exact this
    · exact h.beta (by omega)
  · intro k hk
    show (newH c j st w1 hh).get [k + 1, k] ≠ 0
    rw [old _ _ (by omega)]
    by_cases hkj : k + 1 < j
    · exact h.sub k hkj
    · have hkj : j = k + 1 := by omega
      have := h.fin.1 hfin
      rw [if_neg (by omega), hkj, Nat.add_sub_cancel] at this
      exact this
  · intro i t hit
    show (newH c j st w1 hh).get [i, t] = 0
    rw [s2]
    by_cases ht : t = j
    · subst ht
      rw [if_pos rfl, if_neg (by omega), if_neg (by omega)]
      exact h.zero _ _ (Or.inr le_rfl)
    · rw [if_neg ht]
      exact h.zero _ _ (by omega)
  · intro r hr
    rcases List.mem_append.1 hr with hr | hr
    · exact h.ranks r hr
    · rw [List.mem_singleton] at hr; subst hr; exact c3 gslen
  · simp only [List.length_append, h.calls, List.length_cons, List.length_nil]; ring
  · intro cl hcl
    rcases List.mem_append.1 hcl with hcl | hcl
    · exact h.call cl hcl
    · simp only [List.mem_cons, List.not_mem_nil, or_false] at hcl
      rcases hcl with rfl | rfl
      · exact ⟨a2, b2⟩
      · exact ⟨gsl, c2⟩
  · intro k hk
    by_cases hkj : k < j
    · show Iter s L c.symmetric (st.nu ++ [w2.mul (1 / hh)]) (newH c j st w1 hh) ((st.calls ++ _).getD _ _)
        ((st.calls ++ _).getD _ _) k
      rw [List.getD_append _ _ _ _ (by rw [h.calls]; omega), List.getD_append _ _ _ _ (by rw [h.calls]; omega)]
      exact (h.it k hkj).congr (fun i hi => hnu i (by omega)) fun i => old i k (by omega)
    · obtain rfl : k = j := by omega
      show Iter s L c.symmetric (st.nu ++ [w2.mul (1 / hh)]) (newH c k st w1 hh) ((st.calls ++ _).getD _ _)
        ((st.calls ++ _).getD _ _) k
      rw [List.getD_append_right _ _ _ _ (by rw [h.calls]), List.getD_append_right _ _ _ _ (by rw [h.calls]; omega),
        h.calls, show 2 * k + 1 - (2 * k + 1) = 0 by omega, show 2 * k + 2 - (2 * k + 1) = 1 by omega]
      have hbv : ∀ i ≤ k, bv s (st.nu ++ [w2.mul (1 / hh)]) i = bv s st.nu i := fun i hi => by rw [bv, bv, hnu i hi]
      refine ⟨?_, ?_, hlow, ?_, ?_, ?_⟩
      · rw [hbv k le_rfl]; exact a3
      · refine hgs.trans ?_
        congr 1
        exact sum_congr rfl fun i hi => by rw [hbv i (by have := mem_range.1 hi; omega)]
      · intro i h1 h2
        rw [hbv i h2, s2, if_pos rfl, if_neg (by omega), if_pos ⟨h1, h2⟩]
        exact good_dot b2 (gd i h2)
      · rw [hsubj, bv, hnu']
        exact hnext
      · rw [hsubj]; exact e4.symm

end TTS.Props

namespace TTS.Props

open Finset Spec

variable {env : ℕ → Env ℝ} {la : LinAlg2} {clock : ℕ → ℝ} {a : GmresArgs}

/-- the trimmed maximal ranks -/
def rkOf (a : GmresArgs) : List ℕ := trimRanks a.b.shape (askedRanks a.b.shape a.maxRank)

theorem b_pos (ha : a.Ok la) : ∀ n ∈ a.b.shape, 0 < n := ha.b.2.1

theorem rk_ok (ha : a.Ok la) : RankOk a.b.shape (.seq (rkOf a)) := by
  have h1 : (rkOf a).length + 1 = a.b.shape.length := trim_len ha.maxRank
  exact ⟨h1, asked_pos (b_pos ha) ha.maxRank⟩

theorem gRnd_ok (hla : GmresEnv env la) (ha : a.Ok la) (k : ℕ) (ts : List (TT ℝ)) (eps : Option ℝ)
    (h : TTList ts a.b.shape) :
    ∃ Y, gRnd env la a (rkOf a) k ts eps = .ok Y ∧ Good a.b.shape Y ∧ (ts.length ≠ 1 → RanksLe Y.rank (rkOf a)) := by
  obtain ⟨Y, y1, y2, y3, y4, y5, y6, -⟩ := C55 (hla.round k) ts a.b.shape h ha.modes _ (rk_ok ha) eps a.method 2 ha.method
    (fun _ => by norm_num)
  refine ⟨Y, by rw [gRnd, y1]; rfl, ⟨y2, y3, y4⟩, fun hl => ?_⟩
  have hle : RanksLe Y.rank (trimRanks a.b.shape (rkOf a)) := by
    by_cases hp : a.method = .pairwise
    · exact y5 hp hl
    · exact y6 hp
  exact ranksLe_trans hle (trim_trim_le (rk_ok ha).len)

theorem cfg_ok (hla : GmresEnv env la) (ha : a.Ok la) {A P : E a.b.shape →ₗ[ℝ] E a.b.shape} (ops : Ops la a A P)
    (beta bNorm : ℝ) : CfgOk (gCfg env la clock a (rkOf a) beta bNorm) a.b.shape (rkOf a) (P ∘ₗ A) :=
  ⟨(hla.round 0).qr, ops.app, fun k ts eps h => gRnd_ok hla ha k ts eps h⟩

/-- what happens before the loop -/
structure Setup (env : ℕ → Env ℝ) (la : LinAlg2) (a : GmresArgs) (A P : E a.b.shape →ₗ[ℝ] E a.b.shape)
    (x0 bPr : TT ℝ) (ax : List (TT ℝ)) (r0 : TT ℝ) : Prop where
  rank : processTTRank a.maxRank a.A.inShape true = .ok (rkOf a)
  guess : initialGuess a.A a.x0 = .ok x0
  good0 : Good a.b.shape x0
  guess0 : a.x0 = none → tv a.b.shape x0 = 0
  guess1 : ∀ x, a.x0 = some x → x0 = x
  rhs : precondRhs la a.precond a.b = .ok bPr
  tvb : tv a.b.shape bPr = P (tv a.b.shape a.b)
  bNorm : a.b.norm la.toLinAlg = .ok ‖tv a.b.shape a.b‖
  app : applyPr la a.A a.precond x0 = .ok ax
  list : TTList (bPr :: ax.map fun t => TT.mul t (-1)) a.b.shape
  sum : tvs a.b.shape (bPr :: ax.map fun t => TT.mul t (-1)) = P (tv a.b.shape a.b) - P (A (tv a.b.shape x0))
  first : gRnd env la a (rkOf a) 0 (bPr :: ax.map fun t => TT.mul t (-1)) none = .ok r0
  good : Good a.b.shape r0
  ranks : RanksLe r0.rank (rkOf a)
  beta : r0.norm la.toLinAlg = .ok ‖tv a.b.shape r0‖
  next : Good a.b.shape (r0.mul (1 / ‖tv a.b.shape r0‖))
  norm0 : (r0.mul (1 / ‖tv a.b.shape r0‖)).norm la.toLinAlg = .ok ‖tv a.b.shape (r0.mul (1 / ‖tv a.b.shape r0‖))‖
  scale : tv a.b.shape r0 = ‖tv a.b.shape r0‖ • tv a.b.shape (r0.mul (1 / ‖tv a.b.shape r0‖))

theorem scale_back {s : List ℕ} {t : TT ℝ} (ht : Good s t) : tv s t = ‖tv s t‖ • tv s (t.mul (1 / ‖tv s t‖)) := by
  rw [(good_mul ht _).2, smul_smul]
  by_cases h0 : ‖tv s t‖ = 0
  · rw [norm_eq_zero.1 h0, smul_zero]
  · rw [mul_one_div_cancel h0, one_smul]

theorem setup (hla : GmresEnv env la) (ha : a.Ok la) {A P : E a.b.shape →ₗ[ℝ] E a.b.shape} (ops : Ops la a A P) :
    ∃ x0 bPr ax r0, Setup env la a A P x0 bPr ax r0 := by
  have hb : Good a.b.shape a.b := ⟨ha.b.1, ha.b.2, rfl⟩
  obtain ⟨x0, x1, x2, x3, x4⟩ : ∃ x0, initialGuess a.A a.x0 = .ok x0 ∧ Good a.b.shape x0 ∧
      (a.x0 = none → tv a.b.shape x0 = 0) ∧ ∀ x, a.x0 = some x → x0 = x := by
    cases hx : a.x0 with
    | some x =>
      exact ⟨x, rfl, ha.x0 x hx, (fun h => by cases h), (fun y h => by injection h)⟩
    | none =>
      have hp : processTTRank (.int 1) a.A.inShape false = .ok (List.replicate (a.b.shape.length - 1) 1) := by
        rw [ha.inShape]
        have := ha.modes
        unfold processTTRank
        simp only [List.length_replicate, Bool.false_eq_true, if_false]
        rw [if_neg (by omega)]
      obtain ⟨X, h1, h2, h3, h4, h5⟩ := C60_tt (K := ℝ) a.A.inShape (.int 1) _ hp
      refine ⟨X, h1, ⟨h2, ⟨by rw [h3, ha.inShape]; exact b_pos ha, ?_⟩, by rw [h3, ha.inShape]⟩, ?_, fun y h => by cases h⟩
      · rw [h4]
        intro r hr
        rw [List.eq_of_mem_replicate hr]
        exact one_pos
      · intro _
        rw [tv, show X.toNumpy.get = 0 from funext h5, map_zero]
  obtain ⟨bPr, b1, b2, b3⟩ := ops.rhs a.b hb
  obtain ⟨ax, a1, a2, a3⟩ := ops.app x0 x2
  have hl : TTList (bPr :: ax.map fun t => TT.mul t (-1)) a.b.shape := ttList_cons b2 fun u hu => by
    obtain ⟨t, ht, rfl⟩ := List.mem_map.1 hu
    exact (good_mul (a2.each t ht) (-1)).1
  obtain ⟨r0, r1, r2, r3⟩ := gRnd_ok hla ha 0 _ none hl
  have hq := (hla.round 0).qr
  have hn := (good_mul r2 (1 / ‖tv a.b.shape r0‖)).1
  refine ⟨x0, bPr, ax, r0, ?_, x1, x2, x3, x4, b1, b3, good_norm hq hb, a1, hl, ?_, r1, r2, r3 ?_, good_norm hq r2, hn,
    good_norm hq hn, scale_back r2⟩
  · rw [ha.inShape, process_asked, if_pos ha.maxRank.len]; rfl
  · show _ + tvs a.b.shape _ = _
    rw [tvs_neg a2.each, a3, b3, ← sub_eq_add_neg]
  · have : ax ≠ [] := a2.ne
    rw [List.length_cons, List.length_map]
    intro h
    exact this (List.length_eq_zero_iff.1 (by omega))

theorem ana_init {A P : E a.b.shape →ₗ[ℝ] E a.b.shape} {x0 bPr : TT ℝ} {ax : List (TT ℝ)} {r0 : TT ℝ}
    (su : Setup env la a A P x0 bPr ax r0) (beta bNorm w0 : ℝ) (hbeta : beta = ‖tv a.b.shape r0‖) :
    Ana (gCfg env la clock a (rkOf a) beta bNorm) a.maxiter a.b.shape (rkOf a) (P ∘ₗ A) 0
      (gInit clock a (bPr :: ax.map fun t => TT.mul t (-1)) r0 beta bNorm w0) := by
  subst hbeta
  refine ⟨rfl, rfl, ?_, ?_, ?_, ?_, rfl, ?_, ?_, rfl, ?_, ?_⟩
  · intro t ht
    have ht : t ∈ [_] := ht
    rw [List.mem_singleton] at ht
    rw [ht]
    exact su.next
  · rw [if_pos rfl]; rfl
  · intro h; omega
  · intro k h; omega
  · intro i t _; exact ND.zeros_get _ _
  · intro r hr
    have hr : r ∈ [_] := hr
    rw [List.mem_singleton] at hr
    rw [hr]
    exact su.ranks
  · intro cl hcl
    have hcl : cl ∈ [_] := hcl
    rw [List.mem_singleton] at hcl
    rw [hcl]
    exact ⟨su.list, su.good⟩
  · intro k h; omega

/-- what a successful run has computed -/
structure Done (a : GmresArgs) (A P : E a.b.shape →ₗ[ℝ] E a.b.shape) (out : GmresOut) (x0 r0 : TT ℝ)
    (nu : List (TT ℝ)) (R : ℕ → ℝ) (n : ℕ) (c0 cl : RoundCall) (cs : List RoundCall) : Prop where
  n0 : 0 < n
  nN : n ≤ a.maxiter
  good0 : Good a.b.shape x0
  guess0 : a.x0 = none → tv a.b.shape x0 = 0
  guess1 : ∀ x, a.x0 = some x → x0 = x
  nuLen : nu.length = n + 1
  outNu : out.nu = nu.take n
  nuGood : ∀ t ∈ nu, Good a.b.shape t
  yLen : out.y.length = n
  beta : out.beta = ‖tv a.b.shape r0‖
  beta0 : out.beta ≠ 0
  bNorm : out.bNorm = ‖tv a.b.shape a.b‖
  scale : tv a.b.shape r0 = out.beta • bv a.b.shape nu 0
  calls : out.calls = c0 :: cs ++ [cl]
  csLen : cs.length = 2 * n
  c0r : c0.result = r0
  c0s : tvs a.b.shape c0.summands = P (tv a.b.shape a.b) - P (A (tv a.b.shape x0))
  c0l : TTList c0.summands a.b.shape
  r0Good : Good a.b.shape r0
  clr : cl.result = out.x
  cls : tvs a.b.shape cl.summands = tv a.b.shape x0 + ∑ k ∈ range n, out.y.getD k 0 • bv a.b.shape nu k
  cll : TTList cl.summands a.b.shape
  call : ∀ c ∈ cs, TTList c.summands a.b.shape ∧ Good a.b.shape c.result
  xGood : Good a.b.shape out.x
  xRank : RanksLe out.x.rank (trimRanks a.b.shape (askedRanks a.b.shape a.lastRank))
  ranks : ∀ r ∈ out.hist.rank, RanksLe r (rkOf a)
  sub : ∀ k, k + 1 < n → out.H.get [k + 1, k] ≠ 0
  zero : ∀ i t, t + 1 < i ∨ n ≤ t → out.H.get [i, t] = 0
  it : ∀ k < n, Iter a.b.shape (P ∘ₗ A) a.symmetric nu out.H (cs.getD (2 * k) noCall) (cs.getD (2 * k + 1) noCall) k
  res : R n = lsq (fun i t => out.H.get [i, t]) out.beta n fun t => out.y.getD t 0
  least : ∀ z, R n ≤ lsq (fun i t => out.H.get [i, t]) out.beta n z
  hist : out.hist.residualNorm = (List.range (n + 1)).map fun k => (PyFloat.val (√ (R k))).div out.bNorm

theorem Ana.loop {c : GmresCfg} {N : ℕ} {s rk : List ℕ} {L : E s →ₗ[ℝ] E s} (hc : CfgOk c s rk L) (hN : 0 < N)
    {st out : GmresSt} (h : Ana c N s rk L 0 st) (hs : gmresLoop c N 0 st = .ok out) :
    ∃ n, Ana c N s rk L n out := by
  obtain ⟨fuel, rfl⟩ : ∃ f, N = f + 1 := ⟨N - 1, by omega⟩
  obtain ⟨n, b, -, -, hJ, -⟩ := loop_rule c (fuel + 1) (Ana c (fuel + 1) s rk L) (fun j _ st => Ana c (fuel + 1) s rk L j st)
    (fun j st st' b hj hI hs => ⟨hI.step hc hj hs, fun _ => hI.step hc hj hs⟩) fuel 0 st out (by omega) h hs
  exact ⟨n, hJ⟩

theorem loop_calls {c : GmresCfg} {N : ℕ} (hN : 0 < N) {st out : GmresSt} (hs : gmresLoop c N 0 st = .ok out) :
    ∃ cs, out.calls = st.calls ++ cs := by
  obtain ⟨fuel, rfl⟩ : ∃ f, N = f + 1 := ⟨N - 1, by omega⟩
  obtain ⟨n, b, -, -, hJ, -⟩ := loop_rule c (fuel + 1) (fun _ s => ∃ cs, s.calls = st.calls ++ cs)
    (fun _ _ s => ∃ cs, s.calls = st.calls ++ cs)
    (by
      rintro j s s' b - ⟨cs, hcs⟩ hs
      obtain ⟨-, -, wSum, w, w', hh, res, y, -, -, -, -, -, -, rfl⟩ := step_inv hs
      have : ∃ cs, s.calls ++ [(⟨wSum, some (c.tol / (s.res / c.beta)), w⟩ : RoundCall),
          ⟨gramSchmidt (hColumn s.H w s.nu (minJ c.symmetric j) j) w s.nu (minJ c.symmetric j) j,
            some (c.tol / (s.res / c.beta)), w'⟩] = st.calls ++ cs := ⟨_, by rw [hcs, List.append_assoc]⟩
      exact ⟨this, fun _ => this⟩)
    fuel 0 st out (by omega) ⟨[], by simp⟩ hs
  exact hJ

theorem run_done {out : GmresOut} (hla : GmresEnv env la) (ha : a.Ok la) {A P : E a.b.shape →ₗ[ℝ] E a.b.shape}
    (ops : Ops la a A P) (h : gmres env la clock a = .ok out) :
    ∃ x0 r0 nu R n c0 cl cs, Done a A P out x0 r0 nu R n c0 cl cs := by
  obtain ⟨maxRank, x0, bPr, ax, r0, w0, st, y, r⟩ := gmres_inv h
  obtain ⟨x0', bPr', ax', r0', su⟩ := setup hla ha ops
  have e1 := su.rank.symm.trans r.rank
  injection e1 with e1
  subst e1
  have e2 := su.guess.symm.trans r.guess
  injection e2 with e2
  subst e2
  have e3 := su.rhs.symm.trans r.rhs
  injection e3 with e3
  subst e3
  have e4 := su.app.symm.trans r.app
  injection e4 with e4
  subst e4
  have e5 := su.first.symm.trans r.first
  injection e5 with e5
  subst e5
  have eb := su.bNorm.symm.trans r.bNorm
  injection eb with eb
  have ebeta := su.beta.symm.trans r.beta
  injection ebeta with ebeta
  obtain ⟨R, n, n0, nN, B, -, -⟩ := run_book hla.lstsq r
  have hN : 0 < a.maxiter := by omega
  obtain ⟨n', An⟩ := Ana.loop (cfg_ok hla ha ops out.beta out.bNorm) hN (ana_init su out.beta out.bNorm w0 ebeta.symm) r.loop
  obtain rfl : n' = n := An.iters.symm.trans B.iters
  obtain ⟨cs, hcs⟩ := loop_calls hN r.loop
  have hcs : st.calls = [⟨bPr' :: ax'.map fun t => TT.mul t (-1), none, r0'⟩] ++ cs := hcs
  obtain ⟨y', hy, yl, hR⟩ := B.y1 n0
  have hyy : y' = y := by
    have := r.sol
    rw [hy] at this
    injection this
  subst hyy
  have ey : out.y = y' := by rw [r.outy, B.iters, List.take_of_length_le (by omega)]
  have hit := An.iters
  have hnl := An.nu
  have hfirst : st.nu.getD 0 ⟨[]⟩ = r0'.mul (1 / out.beta) := by
    obtain ⟨fuel, hf⟩ : ∃ f, a.maxiter = f + 1 := ⟨a.maxiter - 1, by omega⟩
    have hl := r.loop
    rw [hf] at hl
    obtain ⟨_, _, -, -, hJ, -⟩ := loop_rule (gCfg env la clock a (rkOf a) out.beta out.bNorm) (fuel + 1)
      (fun _ s => s.nu ≠ [] ∧ s.nu.getD 0 ⟨[]⟩ = r0'.mul (1 / out.beta))
      (fun _ _ s => s.nu ≠ [] ∧ s.nu.getD 0 ⟨[]⟩ = r0'.mul (1 / out.beta))
      (by
        rintro j s s' b - ⟨q1, q2⟩ hs
        obtain ⟨-, -, wSum, w, w', hh, res, y, -, -, -, -, -, -, rfl⟩ := step_inv hs
        have : s.nu ++ [w'.mul (1 / hh)] ≠ [] ∧ (s.nu ++ [w'.mul (1 / hh)]).getD 0 ⟨[]⟩ = r0'.mul (1 / out.beta) :=
          ⟨by simp, by rw [List.getD_append _ _ _ _ (List.length_pos_iff.2 q1)]; exact q2⟩
        exact ⟨this, fun _ => this⟩)
      fuel 0 _ st (by omega) ⟨by simp [gInit], rfl⟩ hl
    exact hJ.2
  have hgt : ∀ t ∈ st.nu.take n', Good a.b.shape t := fun t ht => An.good t (List.mem_of_mem_take ht)
  obtain ⟨z1, z2⟩ := tvs_zip (s := a.b.shape) (ts := st.nu.take n') (cs := y') hgt (by
    rw [List.length_take, hnl, yl]; omega)
  have htake : (st.nu.take st.iters) = st.nu.take n' := by rw [hit]
  have hytake : y'.take st.iters = y' := by rw [hit, List.take_of_length_le (by omega)]
  have hlast := r.last
  rw [htake, hytake] at hlast
  have hll : TTList (x0' :: List.zipWith TT.mul (st.nu.take n') y') a.b.shape := ttList_cons su.good0 z1
  obtain ⟨Y, q1, q2, q3, q4, q5, q6, -⟩ := C55 (hla.round (2 * st.iters + 1)) _ a.b.shape hll ha.modes a.lastRank ha.lastRank
    none a.lastMethod 2 ha.lastMethod (fun _ => by norm_num)
  rw [q1] at hlast
  have hx : Y = out.x := by injection hlast
  have hlen : (x0' :: List.zipWith TT.mul (st.nu.take n') y').length ≠ 1 := by
    rw [List.length_cons, List.length_zipWith, List.length_take, hnl, yl]; omega
  refine ⟨x0', r0', st.nu, R, n', ⟨bPr' :: ax'.map fun t => TT.mul t (-1), none, r0'⟩,
    ⟨x0' :: List.zipWith TT.mul (st.nu.take n') y', none, out.x⟩, cs, ?_⟩
  constructor
  · exact n0
  · exact nN
  · exact su.good0
  · exact su.guess0
  · exact su.guess1
  · exact hnl
  · rw [r.nu, htake]
  · exact An.good
  · rw [ey]; exact yl
  · exact ebeta.symm
  · exact An.beta n0
  · exact eb.symm
  · rw [bv, hfirst, ← ebeta]; exact su.scale
  · rw [r.calls, hcs, htake, hytake]; rfl
  · have := An.calls
    rw [hcs, List.length_append, List.length_singleton] at this
    omega
  · rfl
  · exact su.sum
  · exact su.list
  · exact su.good
  · rfl
  · show _ + tvs a.b.shape _ = _
    rw [z2, ey, yl]
    congr 1
    refine sum_congr rfl fun k hk => ?_
    have hk := mem_range.1 hk
    rw [bv, List.getD_eq_getElem?_getD (l := st.nu.take n'), List.getElem?_take, if_pos hk, ← List.getD_eq_getElem?_getD]
  · exact hll
  · intro c hc
    exact An.call c (by rw [hcs]; exact List.mem_append_right _ hc)
  · rw [← hx]; exact ⟨q2, q3, q4⟩
  · rw [← hx]
    by_cases hp : a.lastMethod = .pairwise
    · exact q5 hp hlen
    · exact q6 hp
  · rw [r.hist]; exact An.ranks
  · rw [r.H]; exact An.sub
  · rw [r.H]; exact An.zero
  · intro k hk
    have := An.it k hk
    rw [hcs] at this
    rw [r.H]
    exact this
  · rw [ey, r.H]; exact hR
  · rw [r.H]; exact B.least n' le_rfl
  · rw [r.hist]; exact B.residual

end TTS.Props
