import Verif.Spec.ApproxGmres
import Verif.Props.ApproxOrthSketch
import Verif.Props.ApproxRound
import Verif.Props.ApproxStream
import Verif.Props.RoundSum

/-!
# `round_tt_sum` with inexact linear algebra
-/

namespace TTS.Props

open Finset Spec

theorem round_good_approx {la : LinAlg} {ε : ℝ} (hε : 0 ≤ ε) (hq : la.QRApprox ε) (hs : la.SVDApprox ε) {s : List ℕ} {X : TT ℝ}
    (hX : X.Valid ∧ X.Pos ∧ X.shape = s) (eps : Option ℝ) (he : 0 ≤ eps.getD 0) {a : RankArg} (ha : RankOk s a) :
    ∃ Y, X.round la eps (some a) false = .ok Y ∧ (Y.Valid ∧ Y.Pos ∧ Y.shape = s) ∧
      RanksLe Y.rank (trimRanks s (askedRanks s a)) ∧
      ∀ Z : TT ℝ, Z.Valid → Z.shape = s → RanksLe Z.rank (askedRanks s a) →
        frobD X.toNumpy Y.toNumpy ≤ roundBound ε (s.length - 1) (eps.getD 0) ((trimRanks s (askedRanks s a)).sum : ℝ)
          (frobD X.toNumpy Z.toNumpy) (frobN X.toNumpy) X.coreNorms := by
  obtain ⟨h1, h2, rfl⟩ := hX
  obtain ⟨Y, y1, y2, y3, y4, y5, y6, -, y7⟩ := C94 hε hq hs h1 h2 eps he a ha.len
  refine ⟨Y, y1, ⟨y2, y4, y3⟩, ?_, y7⟩
  have hl := trim_len ha
  have hr := rank_length h1
  refine ⟨by rw [y5.1]; omega, fun k hk => ?_⟩
  have hk' : k < X.rank.length := by rw [← y5.1]; exact hk
  have h3 := y6 k hk'
  have h4 : 0 < (trimRanks X.shape (askedRanks X.shape a)).getD k 0 := by
    rw [List.getD_eq_getElem _ _ (by omega)]
    exact asked_pos h2.1 ha _ (List.getElem_mem _)
  omega

theorem pairwise_good_approx {la : LinAlg} {ε : ℝ} (hε : 0 ≤ ε) (hq : la.QRApprox ε) (hs : la.SVDApprox ε) {s : List ℕ}
    (hd : 2 ≤ s.length) (eps : Option ℝ) (he : 0 ≤ eps.getD 0)
    {a : RankArg} (ha : RankOk s a) : ∀ (ts : List (TT ℝ)) (t : TT ℝ),
    t.Valid ∧ t.Pos ∧ t.shape = s → (∀ u ∈ ts, u.Valid ∧ u.Pos ∧ u.shape = s) →
    ∃ Y, ts.foldlM (fun acc t => (acc.add t).round la eps (some a) false) t = .ok Y ∧
      (Y.Valid ∧ Y.Pos ∧ Y.shape = s) ∧
      (ts ≠ [] ∨ RanksLe t.rank (trimRanks s (askedRanks s a)) → RanksLe Y.rank (trimRanks s (askedRanks s a)))
  | [], t, ht, _ => ⟨t, rfl, ht, fun h => h.resolve_left fun h => h rfl⟩
  | u :: us, t, ht, h => by
    obtain ⟨b1, -⟩ := foldl_add hd [u] t ht fun v hv => h v (by simp at hv; simp [hv])
    obtain ⟨Z, z1, z2, z3, -⟩ := round_good_approx hε hq hs b1 eps he ha
    obtain ⟨Y, y1, y2, y3⟩ := pairwise_good_approx hε hq hs hd eps he ha us Z z2 fun v hv => h v (by simp [hv])
    refine ⟨Y, ?_, y2, fun _ => y3 (.inr z3)⟩
    rw [List.foldlM_cons]
    show ((t.add u).round la eps (some a) false).bind _ = _
    rw [show (t.add u).round la eps (some a) false = .ok Z from z1]
    exact y1

theorem sketch_good_approx {env : Env ℝ} {ε : ℝ} (hε : 0 ≤ ε) (hE : LstsqApproxContract env ε) {ts : List (TT ℝ)} {s : List ℕ}
    (h : TTList ts s)
    (hd : 2 ≤ s.length) {rs : List ℕ} (hl : rs.length + 1 = s.length) (hp : ∀ r ∈ rs, 0 < r) {f : ℝ} (hf : 1 < f) :
    ∃ S Y, streamSketch env (ttSum ts) (.seq rs) (.seq (oversample f rs)) = .ok S ∧ S.toTT env = .ok Y ∧ Y.Valid ∧
      Y.shape = s ∧ Y.rank = trimRanks s rs ∧ S.leftRank = trimRanks s rs ∧ S.rightRank = oversample f rs ∧
      ∀ (B : ℕ → ℕ → List ℕ → ℝ) (Z : ℕ → ND ℝ), (∀ mu < s.length - 1,
          (Z mu).shape = [(1 :: S.leftRank).getD mu 0, s.getD mu 0, S.leftRank.getD mu 0]) →
        frobD (ttSum ts).toNumpy Y.toNumpy ≤ rightBound ε (ttSum ts).toNumpy (S.left.leftMats env) (S.right.rightMats env)
          S.leftRank S.rightRank S.sketch S.sketch Y.cores B Z := by
  have hs := ttSum_shape h
  have ho : ∀ k < s.length - 1, rs.getD k 0 < (oversample f rs).getD k 0 :=
    fun k hk => lt_oversample hf hp (by omega)
  have hd' : 2 ≤ (ttSum ts).shape.length := by rw [hs]; exact hd
  obtain ⟨S, e, hr1, hr2⟩ := sketch_ranks env h hd hl hp hf
  have hg := SketchKw.good_none (K := ℝ) none none none
  obtain ⟨⟨cs, c1, c2, c3, c4, c5⟩, -, -⟩ := C96 env ε hε hE _ _ _ _ S hg (ttSum_valid h) (ttSum_nonEmpty h) hd'
    (ttSum_distinct ts) (ttSum_rightExact ts) e
  obtain ⟨hsh, -, -, -, hl', hr'⟩ := C38_shapes env _ _ _ _ S hg (ttSum_valid h) (ttSum_nonEmpty h) hd' e
  refine ⟨S, ⟨cs⟩, e, ?_, c2, c3.trans hs, c4.trans hr1, hr1, hr2, by rw [hs] at c5; exact c5⟩
  have hall : ¬ ((S.sketch.leftRank.zip S.sketch.rightRank).all fun p => decide (p.1 > p.2)) = true := by
    rw [hsh.left, hsh.right, ← zip_swap_all, zip_all hr' hl', decide_eq_true_iff]
    intro hh
    have h1 := hh 0 (by omega)
    have h2 := ho 0 (by omega)
    rw [hr1, hr2] at h1
    have := (trim_trim_le hl).2 0 (by have := trimRanks_length s rs hl; omega)
    omega
  have c1 : assemble env S.sketch .right = .ok cs := c1
  unfold Sketched.toTT Sketched.cCores
  rw [assemble_auto, if_neg hall]
  show ((assemble env S.sketch .right).map TT.mk) = _
  rw [c1]; rfl

theorem orth_good_approx {env : Env ℝ} {ε : ℝ} (hε : 0 ≤ ε) (hE : LstsqApproxContract env ε) (hQ : QRApproxContract env ε)
    {ts : List (TT ℝ)} {s : List ℕ} (h : TTList ts s) (hd : 2 ≤ s.length) {rs : List ℕ} (hl : rs.length + 1 = s.length)
    (hp : ∀ r ∈ rs, 0 < r) {f : ℝ} (hf : 1 < f) :
    ∃ Y l r, orthogonalSketch env (ttSum ts) (.seq rs) (.seq (oversample f rs)) = .ok (Y, l, r) ∧ Y.Valid ∧
      Y.shape = s ∧ Y.rank = trimRanks s rs ∧ l.rank = trimRanks s rs ∧ r.rank.reverse = oversample f rs ∧
      ∀ (B : ℕ → ℕ → List ℕ → ℝ) (H : ℕ → List ℕ → ℕ → ℝ), frobD (ttSum ts).toNumpy Y.toNumpy
        ≤ orthBound ε (ttSum ts).toNumpy (l.leftMats env) (r.rightMats env) l.rank r.rank.reverse B H fun mu =>
          frobN (bondSolution env (ttSum ts).toNumpy (l.leftMats env) (r.rightMats env) l.rank r.rank.reverse Y mu) := by
  have hs := ttSum_shape h
  have hv := ttSum_valid h
  have hne := ttSum_nonEmpty h
  have hd' : 2 ≤ (ttSum ts).shape.length := by rw [hs]; exact hd
  have p1 := shape_pos_of_list h
  obtain ⟨⟨Y, l, r⟩, e⟩ := C97_success env ε hQ hE (ttSum ts) (.seq rs) (.seq (oversample f rs)) none none none hv hd'
    (ttSum_distinct ts) (ttSum_rightExact ts) (by rw [hs]; show rs.length = _; omega)
    (by rw [hs]; show (oversample f rs).length = _; rw [oversample_length]; omega)
    (by rw [hs]; exact fun k hk => lt_oversample hf hp (by omega)) (by rw [hs]; exact p1)
    hp (by decide) (ttSum_supports ts)
  have hg := SketchKw.good_none (K := ℝ) none none none
  obtain ⟨-, -, -, -, -, -, o6, o7⟩ := orth_inv hg hv hne hd' e
  have e1 : l.rank = trimRanks s rs := by rw [o6 rfl, hs]; rfl
  obtain ⟨f1, f2, f3, -, f4, -⟩ := C97 env ε hε hQ hE _ _ _ _ Y l r hg hv hne hd' (ttSum_distinct ts) (ttSum_rightExact ts)
    (by rw [hs]; exact p1) (by rw [e1]; exact asked_pos (a := .seq rs) p1 ⟨hl, hp⟩) e
  exact ⟨Y, l, r, e, f1, f2.trans hs, f3.trans e1, e1, o7 rfl, f4⟩

end TTS.Props
