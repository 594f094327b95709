import Verif.Spec.Gmres
import Verif.Props.RoundSum

/-!
# The GMRES loop: inversion, bookkeeping
-/

namespace TTS.Props

open Finset Spec

/-- the values written to `H` in iteration `j` -/
def newH (c : GmresCfg) (j : ℕ) (st : GmresSt) (w : TT ℝ) (h : ℝ) : ND ℝ :=
  (hColumn st.H w st.nu (minJ c.symmetric j) j).setEntry [j + 1, j] h

theorem step_inv {c : GmresCfg} {j : ℕ} {st st' : GmresSt} {b : Bool} (hs : gmresStep c j st = .ok (st', b)) :
    st.finite ∧ st.res ≠ 0 ∧ ∃ wSum w w' h res y,
      c.ap (st.nu.getLastD ⟨[]⟩) = .ok wSum ∧
      c.rnd (2 * j + 1) wSum (some (c.tol / (st.res / c.beta))) = .ok w ∧
      c.rnd (2 * j + 2) (gramSchmidt (hColumn st.H w st.nu (minJ c.symmetric j) j) w st.nu (minJ c.symmetric j) j)
        (some (c.tol / (st.res / c.beta))) = .ok w' ∧
      w'.norm c.la.toLinAlg = .ok h ∧
      c.la.lstsq (((newH c j st w h).rows 0 (j + 2)).cols 0 (j + 1)) (c.beta :: List.replicate (j + 1) 0) = (y, [res]) ∧
      (b = true ↔ ((PyFloat.val res).div c.bNorm).lt c.tol) ∧
      st' =
      { nu := st.nu ++ [w'.mul (1 / h)]
        finite := h ≠ 0
        H := newH c j st w h
        res := res
        y := some y
        iters := j + 1
        hist := { st.hist with
          stepTime := st.hist.stepTime ++ [c.clock (3 * j + 3) - c.clock (3 * j + 2)]
          stepTimeRes := st.hist.stepTimeRes ++ [c.clock (3 * j + 4) - c.clock (3 * j + 2)]
          residualNorm := st.hist.residualNorm ++ [(PyFloat.val (√ res)).div c.bNorm]
          rank := st.hist.rank ++ [w'.rank]
          wNorm := st.hist.wNorm ++ [h]
          delta := st.hist.delta ++ [c.tol / (st.res / c.beta)] }
        calls := st.calls ++ [⟨wSum, some (c.tol / (st.res / c.beta)), w⟩,
          ⟨gramSchmidt (hColumn st.H w st.nu (minJ c.symmetric j) j) w st.nu (minJ c.symmetric j) j,
            some (c.tol / (st.res / c.beta)), w'⟩] } := by
  unfold gmresStep at hs
  by_cases h0 : ¬ st.finite ∨ st.res = 0
  · rw [if_pos h0] at hs; cases hs
  rw [if_neg h0] at hs
  push Not at h0
  refine ⟨h0.1, h0.2, ?_⟩
  obtain ⟨wSum, e1, hs⟩ := andThen_ok hs
  obtain ⟨w, e2, hs⟩ := andThen_ok hs
  obtain ⟨w', e3, hs⟩ := andThen_ok hs
  obtain ⟨h, e4, hs⟩ := andThen_ok hs
  refine ⟨wSum, w, w', h, ?_⟩
  dsimp only at hs
  generalize e5 : c.la.lstsq _ _ = sol at hs
  obtain ⟨y, rs⟩ := sol
  match rs, hs with
  | [res], hs =>
    injection hs with hs
    injection hs with hs hb
    exact ⟨res, y, e1, e2, e3, e4, e5, by rw [← hb]; simp, hs.symm⟩

theorem loop_rule (c : GmresCfg) (N : ℕ) (I : ℕ → GmresSt → Prop) (J : ℕ → Bool → GmresSt → Prop)
    (hstep : ∀ j st st' b, j < N → I j st → gmresStep c j st = .ok (st', b) →
      J (j + 1) b st' ∧ (b = false → I (j + 1) st')) :
    ∀ (fuel j : ℕ) (st out : GmresSt), j + (fuel + 1) = N → I j st → gmresLoop c (fuel + 1) j st = .ok out →
      ∃ n b, j < n ∧ n ≤ N ∧ J n b out ∧ (b = true ∨ n = N) := by
  intro fuel
  induction fuel with
  | zero =>
    intro j st out hN hI h
    obtain ⟨p, h1, h2⟩ := andThen_ok h
    obtain ⟨hJ, -⟩ := hstep j st p.1 p.2 (by omega) hI h1
    have : out = p.1 := by
      by_cases hp : p.2 = true
      · rw [if_pos hp] at h2; injection h2 with h2; exact h2.symm
      · rw [if_neg hp] at h2; injection h2 with h2; exact h2.symm
    subst this
    exact ⟨j + 1, p.2, by omega, by omega, hJ, Or.inr (by omega)⟩
  | succ fuel ih =>
    intro j st out hN hI h
    obtain ⟨p, h1, h2⟩ := andThen_ok h
    obtain ⟨hJ, hI'⟩ := hstep j st p.1 p.2 (by omega) hI h1
    by_cases hp : p.2 = true
    · rw [if_pos hp] at h2
      injection h2 with h2
      subst h2
      exact ⟨j + 1, p.2, by omega, by omega, hJ, Or.inl hp⟩
    · rw [if_neg hp] at h2
      obtain ⟨n, b, n1, n2, n3, n4⟩ := ih (j + 1) p.1 out (by omega) (hI' (by simpa using hp)) h2
      exact ⟨n, b, by omega, n2, n3, n4⟩

/-! ### The matrix -/

theorem inR2 {a b i k : ℕ} : InR [a, b] [i, k] ↔ i < a ∧ k < b := by
  simp [InR]

theorem hColumn_fold (w : TT ℝ) (nu : List (TT ℝ)) (j N : ℕ) (hj : j < N) (l m : ℕ) : ∀ (H : ND ℝ), H.shape = [N + 1, N] →
    m + l ≤ j + 1 →
    ((List.range' m l).foldl (fun H i => H.setEntry [i, j] (w.dot (nu.getD i ⟨[]⟩))) H).shape = [N + 1, N] ∧
    ∀ i k, ((List.range' m l).foldl (fun H i => H.setEntry [i, j] (w.dot (nu.getD i ⟨[]⟩))) H).get [i, k]
      = if k = j ∧ m ≤ i ∧ i < m + l then w.dot (nu.getD i ⟨[]⟩) else H.get [i, k] := by
  induction l generalizing m with
  | zero =>
    intro H hH _
    refine ⟨hH, fun i k => ?_⟩
    rw [if_neg (by omega)]
    rfl
  | succ l ih =>
    intro H hH hm
    rw [List.range'_succ, List.foldl_cons]
    obtain ⟨h1, h2⟩ := ih (m + 1) (H.setEntry [m, j] (w.dot (nu.getD m ⟨[]⟩))) hH (by omega)
    refine ⟨h1, fun i k => ?_⟩
    rw [h2, ND.setEntry_get (by rw [hH, inR2]; omega)]
    by_cases hk : k = j
    · subst hk
      by_cases h3 : i = m
      · subst h3
        rw [if_neg (by omega), if_pos rfl, if_pos (by omega)]
      · rw [if_neg (c := [i, k] = [m, k]) (by simp [h3])]
        by_cases h4 : m + 1 ≤ i ∧ i < m + 1 + l
        · rw [if_pos ⟨rfl, h4⟩, if_pos ⟨rfl, by omega⟩]
        · rw [if_neg (by omega), if_neg (by omega)]
    · rw [if_neg (by tauto), if_neg (by simp [hk]), if_neg (by tauto)]

theorem minJ_le (s : Bool) (j : ℕ) : minJ s j ≤ j := by
  unfold minJ; split <;> omega

theorem newH_spec {c : GmresCfg} {j N : ℕ} {st : GmresSt} (w : TT ℝ) (h : ℝ) (hH : st.H.shape = [N + 1, N]) (hj : j < N) :
    (newH c j st w h).shape = [N + 1, N] ∧
    ∀ i k, (newH c j st w h).get [i, k] = if k = j then
      (if i = j + 1 then h else if minJ c.symmetric j ≤ i ∧ i ≤ j then w.dot (st.nu.getD i ⟨[]⟩) else st.H.get [i, j])
      else st.H.get [i, k] := by
  have hm := minJ_le c.symmetric j
  obtain ⟨h1, h2⟩ := hColumn_fold w st.nu j N hj (j + 1 - minJ c.symmetric j) (minJ c.symmetric j) st.H hH (by omega)
  refine ⟨h1, fun i k => ?_⟩
  unfold newH hColumn
  rw [ND.setEntry_get (by rw [h1, inR2]; omega), h2]
  by_cases hk : k = j
  · subst hk
    rw [if_pos rfl]
    by_cases h3 : i = k + 1
    · subst h3; rw [if_pos rfl, if_pos rfl]
    · rw [if_neg (by simp [h3]), if_neg h3]
      by_cases h4 : minJ c.symmetric k ≤ i ∧ i ≤ k
      · rw [if_pos ⟨rfl, by omega⟩, if_pos h4]
      · rw [if_neg (by omega), if_neg h4]
  · rw [if_neg (by simp [hk]), if_neg (by tauto), if_neg hk]

theorem lsq_congr {h h' : ℕ → ℕ → ℝ} {beta : ℝ} {k : ℕ} {z z' : ℕ → ℝ} (hh : ∀ i t, t < k → h i t = h' i t)
    (hz : ∀ t < k, z t = z' t) : lsq h beta k z = lsq h' beta k z' := by
  unfold lsq
  refine sum_congr rfl fun i _ => ?_
  rw [sum_congr rfl fun t ht => by rw [hh i t (mem_range.1 ht), hz t (mem_range.1 ht)]]

theorem e1_getD (beta : ℝ) (k i : ℕ) : (beta :: List.replicate k 0).getD i 0 = if i = 0 then beta else 0 := by
  cases i with
  | zero => rfl
  | succ i =>
    rw [List.getD_cons_succ, if_neg (by omega)]
    by_cases h : i < k
    · rw [List.getD_eq_getElem _ _ (by simpa using h)]; simp
    · rw [List.getD_eq_default _ _ (by simpa using h)]

theorem residSq_lsq {H : ND ℝ} {N k : ℕ} (hH : H.shape = [N + 1, N]) (beta : ℝ) (z : ℕ → ℝ) :
    residSq ((H.rows 0 (k + 1)).cols 0 k) (beta :: List.replicate k 0) (k + 1) k z
      = lsq (fun i t => H.get [i, t]) beta k z := by
  unfold residSq lsq
  have hs := ND.rows_shape hH 0 (k + 1)
  refine sum_congr rfl fun i hi => ?_
  rw [e1_getD, sum_congr rfl fun t ht => by
    rw [ND.cols_get hs 0 k i t (by have := mem_range.1 ht; omega),
      ND.rows_get hH 0 (k + 1) i (0 + t) (by have := mem_range.1 hi; omega), zero_add, zero_add]]

theorem red_shape {H : ND ℝ} {N k : ℕ} (hH : H.shape = [N + 1, N]) (hk : k ≤ N) :
    ((H.rows 0 (k + 1)).cols 0 k).shape = [k + 1, k] := by
  rw [ND.cols_shape (ND.rows_shape hH 0 (k + 1))]
  congr 1
  · omega
  · congr 1; omega

/-- what `lstsq` gives in one iteration -/
theorem lstsq_lsq {la : LinAlg2} (hl : la.LstsqOk) {H : ND ℝ} {N k : ℕ} (hH : H.shape = [N + 1, N]) (hk : k ≤ N) {beta : ℝ}
    {y : List ℝ} {r : ℝ}
    (e : la.lstsq ((H.rows 0 (k + 1)).cols 0 k) (beta :: List.replicate k 0) = (y, [r])) :
    y.length = k ∧ r = lsq (fun i t => H.get [i, t]) beta k (fun t => y.getD t 0) ∧
    (∀ z, r ≤ lsq (fun i t => H.get [i, t]) beta k z) ∧
    FullColumnRank ((H.rows 0 (k + 1)).cols 0 k) (k + 1) k := by
  obtain ⟨h1, h2, h3, h4⟩ := hl _ (beta :: List.replicate k 0) (k + 1) k (red_shape hH hk) (by simp) (by omega)
  rw [e] at h1 h2 h3 h4
  have hf : FullColumnRank ((H.rows 0 (k + 1)).cols 0 k) (k + 1) k := by
    by_contra h
    have := h4 h
    cases this
  have h3 := h3 hf
  injection h3 with h3
  rw [residSq_lsq hH] at h3
  refine ⟨h1, h3, fun z => ?_, hf⟩
  have := h2 z
  rw [residSq_lsq hH, residSq_lsq hH] at this
  rw [h3]
  exact this

theorem lsq_succ {h : ℕ → ℕ → ℝ} {beta : ℝ} {k : ℕ} (z : ℕ → ℝ) (h0 : ∀ t < k, h (k + 1) t = 0) :
    lsq h beta (k + 1) (fun t => if t < k then z t else 0) = lsq h beta k z := by
  unfold lsq
  rw [sum_range_succ]
  have e : ∀ i, ∑ t ∈ range (k + 1), h i t * (if t < k then z t else 0) = ∑ t ∈ range k, h i t * z t := by
    intro i
    rw [sum_range_succ, if_neg (lt_irrefl k), mul_zero, add_zero]
    exact sum_congr rfl fun t ht => by rw [if_pos (mem_range.1 ht)]
  have e' : ∑ t ∈ range k, h (k + 1) t * z t = 0 := sum_eq_zero fun t ht => by rw [h0 t (mem_range.1 ht), zero_mul]
  simp only [e, e']
  rw [if_neg (by omega)]
  ring

theorem lsq_nonneg (h : ℕ → ℕ → ℝ) (beta : ℝ) (k : ℕ) (z : ℕ → ℝ) : 0 ≤ lsq h beta k z :=
  sum_nonneg fun _ _ => sq_nonneg _

theorem lsq_zero (h : ℕ → ℕ → ℝ) (beta : ℝ) (z : ℕ → ℝ) : lsq h beta 0 z = beta ^ 2 := by
  simp [lsq]

/-! ### Bookkeeping -/

/-- The reported quantities after `j` iterations; `R k` is the squared residual after `k` of them. -/
structure Book (c : GmresCfg) (N : ℕ) (R : ℕ → ℝ) (j : ℕ) (st : GmresSt) : Prop where
  nu : st.nu.length = j + 1
  iters : st.iters = j
  wNorm : st.hist.wNorm.length = j + 1
  rank : st.hist.rank.length = j + 1
  stepTime : st.hist.stepTime = (c.clock 1 - c.clock 0) ::
    (List.range j).map fun k => c.clock (3 * k + 3) - c.clock (3 * k + 2)
  stepTimeRes : st.hist.stepTimeRes = (List.range j).map fun k => c.clock (3 * k + 4) - c.clock (3 * k + 2)
  residual : st.hist.residualNorm = (List.range (j + 1)).map fun k => (PyFloat.val (√ (R k))).div c.bNorm
  delta : st.hist.delta = (List.range j).map fun k => c.tol / ((if k = 0 then c.beta else R k) / c.beta)
  res : st.res = if j = 0 then c.beta else R j
  pos : ∀ k < j, (if k = 0 then c.beta else R k) ≠ 0
  y0 : j = 0 → st.y = none
  y1 : 0 < j → ∃ y, st.y = some y ∧ y.length = j ∧ R j = lsq (fun i t => st.H.get [i, t]) c.beta j fun t => y.getD t 0
  shape : st.H.shape = [N + 1, N]
  zero : ∀ i t, t + 1 < i ∨ j ≤ t → st.H.get [i, t] = 0
  R0 : R 0 = c.beta ^ 2
  least : ∀ k ≤ j, ∀ z, R k ≤ lsq (fun i t => st.H.get [i, t]) c.beta k z
  attained : ∀ k ≤ j, ∃ z, R k = lsq (fun i t => st.H.get [i, t]) c.beta k z
  sub : ∀ k < j, st.H.get [k + 1, k] = st.hist.wNorm.getD (k + 1) 0

theorem Book.anti {c : GmresCfg} {N : ℕ} {R : ℕ → ℝ} {j : ℕ} {st : GmresSt} (h : Book c N R j st) {k : ℕ} (hk : k < j) :
    R (k + 1) ≤ R k := by
  obtain ⟨z, hz⟩ := h.attained k (by omega)
  rw [hz, ← lsq_succ z fun t ht => h.zero _ _ (Or.inl (by omega))]
  exact h.least (k + 1) (by omega) _

theorem Book.nonneg {c : GmresCfg} {N : ℕ} {R : ℕ → ℝ} {j : ℕ} {st : GmresSt} (h : Book c N R j st) {k : ℕ} (hk : k ≤ j) :
    0 ≤ R k := by
  obtain ⟨z, hz⟩ := h.attained k hk
  rw [hz]
  exact lsq_nonneg _ _ _ _

/-- the test of the loop -/
def Stop (c : GmresCfg) (r : ℝ) : Prop := ((PyFloat.val r).div c.bNorm).lt c.tol

theorem map_range_congr {α : Type*} {f g : ℕ → α} {n : ℕ} (h : ∀ k < n, f k = g k) :
    (List.range n).map f = (List.range n).map g :=
  List.map_congr_left fun k hk => h k (List.mem_range.1 hk)

theorem Book.step {c : GmresCfg} (hl : c.la.LstsqOk) {N : ℕ} {R : ℕ → ℝ} {j : ℕ} {st st' : GmresSt} {b : Bool}
    (h : Book c N R j st) (hj : j < N) (hs : gmresStep c j st = .ok (st', b)) :
    ∃ R', (∀ k ≤ j, R' k = R k) ∧ Book c N R' (j + 1) st' ∧ (b = true ↔ Stop c (R' (j + 1))) := by
  obtain ⟨-, hres, wSum, w, w', hh, res, y, e1, e2, e3, e4, e5, hb, rfl⟩ := step_inv hs
  obtain ⟨s1, s2⟩ := newH_spec (c := c) (st := st) w hh h.shape hj
  obtain ⟨l1, l2, l3, -⟩ := lstsq_lsq hl s1 (by omega : j + 1 ≤ N) e5
  have old : ∀ i t, t < j → (newH c j st w hh).get [i, t] = st.H.get [i, t] := by
    intro i t ht
    rw [s2, if_neg (by omega)]
  refine ⟨fun k => if k = j + 1 then res else R k, fun k hk => if_neg (by omega), ?_, ?_⟩
  · constructor
    · simp [h.nu]
    · rfl
    · simp [h.wNorm]
    · simp [h.rank]
    · simp only [h.stepTime, List.range_succ, List.map_append, List.map_cons, List.map_nil, List.cons_append]
    · simp only [h.stepTimeRes, List.range_succ, List.map_append, List.map_cons, List.map_nil]
    · show st.hist.residualNorm ++ [(PyFloat.val (√ res)).div c.bNorm] = _
      rw [h.residual, List.range_succ (n := j + 1), List.map_append, List.map_cons, List.map_nil, if_pos rfl]
      congr 1
      exact map_range_congr fun k hk => by rw [if_neg (by omega)]
    · show st.hist.delta ++ [c.tol / (st.res / c.beta)] = _
      rw [h.delta, List.range_succ, List.map_append, List.map_cons, List.map_nil, h.res]
      congr 1
      · exact map_range_congr fun k hk => by rw [if_neg (c := k = j + 1) (by omega)]
      · rw [if_neg (c := j = j + 1) (by omega)]
    · rw [if_neg (by omega), if_pos rfl]
    · intro k hk
      rw [if_neg (c := k = j + 1) (by omega)]
      by_cases hkj : k < j
      · exact h.pos k hkj
      · have : k = j := by omega
        subst this
        rw [← h.res]
        exact hres
    · intro h0; omega
    · intro _
      exact ⟨y, rfl, l1, by rw [if_pos rfl]; exact l2⟩
    · exact s1
    · intro i t hit
      show (newH c j st w hh).get [i, t] = 0
      rw [s2]
      by_cases ht : t = j
      · subst ht
        rw [if_pos rfl, if_neg (by omega), if_neg (by omega)]
        exact h.zero _ _ (Or.inr le_rfl)
      · rw [if_neg ht]
        exact h.zero _ _ (by omega)
    · rw [if_neg (by omega)]; exact h.R0
    · intro k hk z
      by_cases hkj : k = j + 1
      · subst hkj; rw [if_pos rfl]; exact l3 z
      · rw [if_neg hkj, lsq_congr (h' := fun i t => st.H.get [i, t]) (fun i t ht => old i t (by omega)) fun _ _ => rfl]
        exact h.least k (by omega) z
    · intro k hk
      by_cases hkj : k = j + 1
      · subst hkj; rw [if_pos rfl]; exact ⟨_, l2⟩
      · rw [if_neg hkj]
        obtain ⟨z, hz⟩ := h.attained k (by omega)
        refine ⟨z, ?_⟩
        rw [lsq_congr (h' := fun i t => st.H.get [i, t]) (fun i t ht => old i t (by omega)) fun _ _ => rfl]
        exact hz
    · intro k hk
      show (newH c j st w hh).get [k + 1, k] = (st.hist.wNorm ++ [hh]).getD (k + 1) 0
      rw [s2]
      have hw := h.wNorm
      by_cases hkj : k = j
      · subst hkj
        rw [if_pos rfl, if_pos rfl, List.getD_append_right _ _ _ _ (by omega), hw]
        simp
      · rw [if_neg hkj, List.getD_append _ _ _ _ (by omega)]
        exact h.sub k (by omega)
  · beta_reduce; rw [if_pos rfl]; exact hb

/-- the loop, when there is at least one iteration -/
theorem Book.loop {c : GmresCfg} (hl : c.la.LstsqOk) {N : ℕ} (hN : 0 < N) {R : ℕ → ℝ} {st out : GmresSt}
    (h : Book c N R 0 st) (hs : gmresLoop c N 0 st = .ok out) :
    ∃ R' n, 0 < n ∧ n ≤ N ∧ Book c N R' n out ∧ (∀ k, 1 ≤ k → k < n → ¬ Stop c (R' k)) ∧
      (n = N ∨ Stop c (R' n)) := by
  obtain ⟨fuel, rfl⟩ : ∃ f, N = f + 1 := ⟨N - 1, by omega⟩
  obtain ⟨n, b, n1, n2, ⟨R', r1, r2, r3⟩, n4⟩ := loop_rule c (fuel + 1)
    (fun j st => ∃ R, Book c (fuel + 1) R j st ∧ ∀ k, 1 ≤ k → k ≤ j → ¬ Stop c (R k))
    (fun j b st => ∃ R, Book c (fuel + 1) R j st ∧ (∀ k, 1 ≤ k → k < j → ¬ Stop c (R k)) ∧ (b = true ↔ Stop c (R j)))
    (by
      rintro j st st' b hj ⟨R, h1, h2⟩ hs
      obtain ⟨R', q1, q2, q3⟩ := h1.step hl hj hs
      refine ⟨⟨R', q2, fun k hk1 hk2 => by rw [q1 k (by omega)]; exact h2 k hk1 (by omega), q3⟩, fun hb => ⟨R', q2, ?_⟩⟩
      intro k hk1 hk2
      by_cases hk : k = j + 1
      · subst hk
        intro hst
        rw [q3.2 hst] at hb
        cases hb
      · rw [q1 k (by omega)]
        exact h2 k hk1 (by omega))
    fuel 0 st out (by omega) ⟨R, h, by intro k h1 h2; omega⟩ hs
  refine ⟨R', n, n1, n2, r1, r2, ?_⟩
  rcases n4 with hb | hn
  · exact Or.inr (r3.1 hb)
  · exact Or.inl hn

/-! ### Inversion of `gmres` -/

/-- rounding number `k` of a run -/
noncomputable def gRnd (env : ℕ → Env ℝ) (la : LinAlg2) (a : GmresArgs) (maxRank : List ℕ) (k : ℕ) (ts : List (TT ℝ))
    (eps : Option ℝ) : Except PyErr (TT ℝ) :=
  (roundTTSum (env k) la.toLinAlg ts (.seq maxRank) eps a.method 2).andThen Rounded.asTT

/-- the loop's constants -/
noncomputable def gCfg (env : ℕ → Env ℝ) (la : LinAlg2) (clock : ℕ → ℝ) (a : GmresArgs) (maxRank : List ℕ) (beta bNorm : ℝ) :
    GmresCfg :=
  ⟨la, gRnd env la a maxRank, applyPr la a.A a.precond, clock, a.symmetric, a.tol, beta, bNorm⟩

/-- the state before the loop -/
noncomputable def gInit (clock : ℕ → ℝ) (a : GmresArgs) (residual : List (TT ℝ)) (r0 : TT ℝ) (beta bNorm w0 : ℝ) : GmresSt :=
  { nu := [r0.mul (1 / beta)]
    finite := beta ≠ 0
    H := ND.zeros [a.maxiter + 1, a.maxiter]
    res := beta
    y := none
    iters := 0
    hist := ⟨[w0], [r0.rank], [(PyFloat.val beta).div bNorm], [clock 1 - clock 0], [], [], 0, 0⟩
    calls := [⟨residual, none, r0⟩] }

structure GmresRun (env : ℕ → Env ℝ) (la : LinAlg2) (clock : ℕ → ℝ) (a : GmresArgs) (out : GmresOut)
    (maxRank : List ℕ) (x0 bPr : TT ℝ) (ax : List (TT ℝ)) (r0 : TT ℝ) (w0 : ℝ) (st : GmresSt) (y : List ℝ) : Prop where
  hb : a.A.outShape = a.b.shape
  hx : ∀ x, a.x0 = some x → x.shape = a.A.inShape
  hio : a.A.outShape = a.A.inShape
  rank : processTTRank a.maxRank a.A.inShape true = .ok maxRank
  guess : initialGuess a.A a.x0 = .ok x0
  rhs : precondRhs la a.precond a.b = .ok bPr
  bNorm : a.b.norm la.toLinAlg = .ok out.bNorm
  app : applyPr la a.A a.precond x0 = .ok ax
  first : gRnd env la a maxRank 0 (bPr :: ax.map fun t => TT.mul t (-1)) none = .ok r0
  beta : r0.norm la.toLinAlg = .ok out.beta
  norm0 : (r0.mul (1 / out.beta)).norm la.toLinAlg = .ok w0
  loop : gmresLoop (gCfg env la clock a maxRank out.beta out.bNorm) a.maxiter 0
    (gInit clock a (bPr :: ax.map fun t => TT.mul t (-1)) r0 out.beta out.bNorm w0) = .ok st
  sol : st.y = some y
  len : (st.nu.take st.iters).length = (y.take st.iters).length
  last : (roundTTSum (env (2 * st.iters + 1)) la.toLinAlg (x0 :: List.zipWith TT.mul (st.nu.take st.iters) (y.take st.iters))
    a.lastRank none a.lastMethod 2).andThen Rounded.asTT = .ok out.x
  hist : out.hist = { st.hist with
    finalRoundTime := clock (3 * st.iters + 3) - clock (3 * st.iters + 2)
    totalTime := clock (3 * st.iters + 4) - clock 0 }
  H : out.H = st.H
  nu : out.nu = st.nu.take st.iters
  outy : out.y = y.take st.iters
  calls : out.calls = st.calls ++
    [⟨x0 :: List.zipWith TT.mul (st.nu.take st.iters) (y.take st.iters), none, out.x⟩]

theorem gmres_inv {env : ℕ → Env ℝ} {la : LinAlg2} {clock : ℕ → ℝ} {a : GmresArgs} {out : GmresOut}
    (h : gmres env la clock a = .ok out) :
    ∃ maxRank x0 bPr ax r0 w0 st y, GmresRun env la clock a out maxRank x0 bPr ax r0 w0 st y := by
  unfold gmres at h
  dsimp only at h
  by_cases h1 : a.A.outShape ≠ a.b.shape
  · rw [if_pos h1] at h; cases h
  rw [if_neg h1] at h
  by_cases h2 : ∃ x ∈ a.x0, x.shape ≠ a.A.inShape
  · rw [if_pos h2] at h; cases h
  rw [if_neg h2] at h
  by_cases h3 : a.A.outShape ≠ a.A.inShape
  · rw [if_pos h3] at h; cases h
  rw [if_neg h3] at h
  obtain ⟨maxRank, e1, h⟩ := andThen_ok h
  obtain ⟨x0, e2, h⟩ := andThen_ok h
  obtain ⟨bPr, e3, h⟩ := andThen_ok h
  obtain ⟨bNorm, e4, h⟩ := andThen_ok h
  obtain ⟨ax, e5, h⟩ := andThen_ok h
  obtain ⟨r0, e6, h⟩ := andThen_ok h
  obtain ⟨beta, e7, h⟩ := andThen_ok h
  obtain ⟨w0, e8, h⟩ := andThen_ok h
  obtain ⟨st, e9, h⟩ := andThen_ok h
  cases hy : st.y with
  | none => rw [hy] at h; cases h
  | some y =>
    rw [hy] at h
    dsimp only at h
    by_cases h4 : (st.nu.take st.iters).length ≠ (y.take st.iters).length
    · rw [if_pos h4] at h; cases h
    rw [if_neg h4] at h
    obtain ⟨x, e10, h⟩ := andThen_ok h
    injection h with h
    subst h
    push Not at h1 h2 h3 h4
    exact ⟨maxRank, x0, bPr, ax, r0, w0, st, y, h1, fun x hx => h2 x hx, h3, e1, e2, e3, e4, e5, e6, e7, e8, e9, hy, h4,
      e10, rfl, rfl, rfl, rfl, rfl⟩

theorem norm_nonneg' {la : LinAlg} {X : TT ℝ} {r : ℝ} (h : X.norm la = .ok r) : 0 ≤ r := by
  unfold TT.norm at h
  cases e : X.orthogonalize la with
  | error e' => rw [e] at h; cases h
  | ok O =>
    rw [e] at h
    injection h with h
    subst h
    exact Real.sqrt_nonneg _

theorem book_init {env : ℕ → Env ℝ} {la : LinAlg2} {clock : ℕ → ℝ} {a : GmresArgs} {maxRank : List ℕ} {beta bNorm : ℝ}
    (hb : 0 ≤ beta) (residual : List (TT ℝ)) (r0 : TT ℝ) (w0 : ℝ) :
    Book (gCfg env la clock a maxRank beta bNorm) a.maxiter (fun _ => beta ^ 2) 0
      (gInit clock a residual r0 beta bNorm w0) := by
  have hz : ∀ i t, (ND.zeros [a.maxiter + 1, a.maxiter] : ND ℝ).get [i, t] = 0 := fun i t => by simp
  constructor <;> first | rfl | (intros; omega) | skip
  · show [(PyFloat.val beta).div bNorm] = [(PyFloat.val (√ (beta ^ 2))).div bNorm]
    rw [Real.sqrt_sq hb]
  · intro _; rfl
  · intro i t _; exact hz i t
  · intro k hk z
    obtain rfl : k = 0 := by omega
    rw [lsq_zero]
    exact le_refl _
  · intro k hk
    obtain rfl : k = 0 := by omega
    exact ⟨fun _ => 0, by rw [lsq_zero]; rfl⟩

theorem stop_iff {c : GmresCfg} {r : ℝ} (hb : 0 ≤ c.bNorm) (hr : 0 ≤ r) :
    Stop c r ↔ c.bNorm ≠ 0 ∧ (√ r / c.bNorm) ^ 2 * c.bNorm < c.tol := by
  unfold Stop PyFloat.div
  by_cases h : c.bNorm = 0
  · simp only [h, if_true, ne_eq, not_true_eq_false, false_and, iff_false]
    by_cases h' : r = 0
    · simp [h', PyFloat.lt]
    · simp [h', PyFloat.lt]
  · show (if c.bNorm = 0 then _ else PyFloat.val (r / c.bNorm)).lt c.tol ↔ _
    rw [if_neg h]
    simp only [PyFloat.lt, ne_eq, h, not_false_eq_true, true_and]
    have : (√ r / c.bNorm) ^ 2 * c.bNorm = r / c.bNorm := by
      rw [div_pow, Real.sq_sqrt hr]
      field_simp
    rw [this]

/-- everything the bookkeeping invariant gives about a run -/
theorem run_book {env : ℕ → Env ℝ} {la : LinAlg2} (hl : la.LstsqOk) {clock : ℕ → ℝ} {a : GmresArgs} {out : GmresOut}
    {maxRank : List ℕ} {x0 bPr : TT ℝ} {ax : List (TT ℝ)} {r0 : TT ℝ} {w0 : ℝ} {st : GmresSt} {y : List ℝ}
    (r : GmresRun env la clock a out maxRank x0 bPr ax r0 w0 st y) :
    ∃ R n, 0 < n ∧ n ≤ a.maxiter ∧ Book (gCfg env la clock a maxRank out.beta out.bNorm) a.maxiter R n st ∧
      (∀ k, 1 ≤ k → k < n → ¬ Stop (gCfg env la clock a maxRank out.beta out.bNorm) (R k)) ∧
      (n = a.maxiter ∨ Stop (gCfg env la clock a maxRank out.beta out.bNorm) (R n)) := by
  have hN : 0 < a.maxiter := by
    rcases Nat.eq_zero_or_pos a.maxiter with h0 | h0
    · have := r.loop
      rw [h0] at this
      injection this with this
      have hs := r.sol
      rw [← this] at hs
      cases hs
    · exact h0
  exact Book.loop hl hN (book_init (norm_nonneg' r.beta) _ _ _) r.loop

end TTS.Props
