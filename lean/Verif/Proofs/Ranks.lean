import Verif.Model.Ranks
import Mathlib.Data.List.GetD

/-! Helper lemmas for rank trimming. -/

namespace TTS
namespace Trim

/-- function view of a list -/
def fn (l : List ℕ) (i : ℕ) : ℕ := l.getD i 0

theorem fn_set (l : List ℕ) (i v j : ℕ) (hi : i < l.length) :
    fn (l.set i v) j = if j = i then v else fn l j := by
  unfold fn
  by_cases h : j = i
  · subst h; simp [List.getD_eq_getElem?_getD, hi]
  · rw [if_neg h]; simp [List.getD_eq_getElem?_getD, List.getElem?_set_ne (Ne.symm h)]

/-- left-to-right pass on functions -/
def hh (d f : ℕ → ℕ) : ℕ → ℕ
  | 0 => f 0
  | i + 1 => min (f (i + 1)) (hh d f i * d i)

/-- closed form of a sweep over `n` modes -/
def sweepF (d f : ℕ → ℕ) (n i : ℕ) : ℕ :=
  if i < n then min (hh d f i) (d i * hh d f (i + 1)) else if i = n then hh d f n else f i

theorem fold_spec (dims : List ℕ) (rs : List ℕ) (hlen : rs.length = dims.length + 1) :
    ∀ n ≤ dims.length,
      let st := (dims.zipIdx.take n).foldl trimStep (rs, false)
      st.1.length = rs.length ∧ (∀ i, fn st.1 i = sweepF (fn dims) (fn rs) n i) ∧
      (st.2 = false → st.1 = rs) := by
  intro n
  induction n with
  | zero => intro _; simp [sweepF, hh]
  | succ n ih =>
    intro hn
    have hn' : n < dims.length := by omega
    obtain ⟨h1, h2, h3⟩ := ih (by omega)
    have htake : dims.zipIdx.take (n + 1) = dims.zipIdx.take n ++ [(dims[n], n)] := by
      rw [List.take_add_one]; simp [hn']
    simp only [htake, List.foldl_append, List.foldl_cons, List.foldl_nil]
    generalize (dims.zipIdx.take n).foldl trimStep (rs, false) = st at h1 h2 h3
    obtain ⟨l, c⟩ := st
    simp only at h1 h2 h3
    have hd : dims[n] = fn dims n := by simp [fn, hn']
    have hl0 : fn l n = hh (fn dims) (fn rs) n := by rw [h2]; simp [sweepF]
    have hl1 : fn l (n + 1) = fn rs (n + 1) := by rw [h2]; simp [sweepF]
    have hln : n < l.length := by omega
    have hln1 : n + 1 < l.length := by omega
    have key : ∀ (l' : List ℕ), l'.length = l.length →
        (∀ i, fn l' i = if i = n + 1 then hh (fn dims) (fn rs) (n + 1) else fn l i) →
        ∀ l'' : List ℕ, (∀ i, fn l'' i = if i = n then min (fn l' n) (fn dims n * fn l' (n + 1))
          else fn l' i) → ∀ i, fn l'' i = sweepF (fn dims) (fn rs) (n + 1) i := by
      intro l' _ hl' l'' hl'' i
      rw [hl'' i]
      unfold sweepF
      by_cases hi : i = n
      · subst hi
        rw [if_pos rfl, if_pos (by omega), hl', hl', if_neg (by omega), if_pos rfl, hl0]
      · rw [if_neg hi, hl']
        by_cases hi1 : i = n + 1
        · subst hi1; simp
        · rw [if_neg hi1, h2]
          unfold sweepF
          by_cases hlt : i < n
          · rw [if_pos hlt, if_pos (by omega)]
          · rw [if_neg hlt, if_neg hi, if_neg (by omega), if_neg hi1]
    unfold trimStep
    simp only [hd]
    change _ ∧ _ ∧ _
    have hg1 : l.getD (n + 1) 0 = fn l (n + 1) := rfl
    have hg0 : l.getD n 0 = fn l n := rfl
    -- first conditional
    by_cases c1 : l.getD (n + 1) 0 > l.getD n 0 * fn dims n
    · rw [if_pos c1]
      simp only
      have e1 : ∀ i, fn (l.set (n + 1) (l.getD n 0 * fn dims n)) i
          = if i = n + 1 then hh (fn dims) (fn rs) (n + 1) else fn l i := by
        intro i
        rw [fn_set _ _ _ _ hln1]
        split
        · rw [hg0, hl0, hh]; rw [hg1, hl1, hg0, hl0] at c1; omega
        · rfl
      set l' := l.set (n + 1) (l.getD n 0 * fn dims n) with hl'
      have hlen' : l'.length = l.length := by simp [hl']
      by_cases c2 : l'.getD n 0 > fn dims n * l'.getD (n + 1) 0
      · rw [if_pos c2]
        refine ⟨by simp [hlen', h1], ?_, by simp⟩
        refine key l' hlen' e1 _ ?_
        intro i
        rw [fn_set _ _ _ _ (by omega)]
        split
        · change _ > _ at c2; unfold fn at *; omega
        · rfl
      · rw [if_neg c2]
        refine ⟨by simp [hlen', h1], ?_, by simp⟩
        refine key l' hlen' e1 _ ?_
        intro i
        split
        · rename_i hi; subst hi; dsimp only at c2 ⊢; unfold fn at *; omega
        · rfl
    · rw [if_neg c1]
      have e1 : ∀ i, fn l i = if i = n + 1 then hh (fn dims) (fn rs) (n + 1) else fn l i := by
        intro i
        split
        · rename_i hi; subst hi; rw [hh, hl1]; rw [hg1, hl1, hg0, hl0] at c1; omega
        · rfl
      simp only
      by_cases c2 : l.getD n 0 > fn dims n * l.getD (n + 1) 0
      · rw [if_pos c2]
        refine ⟨by simp [h1], ?_, by simp⟩
        refine key l rfl e1 _ ?_
        intro i
        rw [fn_set _ _ _ _ hln]
        split
        · unfold fn at *; omega
        · rfl
      · rw [if_neg c2]
        refine ⟨h1, ?_, h3⟩
        refine key l rfl e1 _ ?_
        intro i
        split
        · rename_i hi; subst hi; dsimp only at c2 ⊢; unfold fn at *; omega
        · rfl

theorem sweep_spec (dims rs : List ℕ) (hlen : rs.length = dims.length + 1) :
    (trimSweep dims rs).1.length = rs.length ∧
    (∀ i, fn (trimSweep dims rs).1 i = sweepF (fn dims) (fn rs) dims.length i) ∧
    ((trimSweep dims rs).2 = false → (trimSweep dims rs).1 = rs) := by
  have h := fold_spec dims rs hlen dims.length le_rfl
  have ht : dims.zipIdx.take dims.length = dims.zipIdx := by
    rw [List.take_of_length_le]; simp
  rw [ht] at h
  exact h

theorem loop_iterate (dims : List ℕ) : ∀ (fuel : ℕ) (rs : List ℕ), rs.length = dims.length + 1 →
    trimLoop dims fuel rs = (fun l => (trimSweep dims l).1)^[fuel] rs
  | 0, _, _ => rfl
  | fuel + 1, rs, h => by
    obtain ⟨h1, -, h3⟩ := sweep_spec dims rs h
    rw [trimLoop, Function.iterate_succ_apply]
    by_cases hc : (trimSweep dims rs).2
    · simp only [hc, if_true]
      exact loop_iterate dims fuel _ (by rw [h1, h])
    · have he := h3 (by simpa using hc)
      simp only [hc, Bool.false_eq_true, if_false, he]
      rw [Function.iterate_fixed he]

theorem iterate_spec (dims : List ℕ) (k : ℕ) (rs : List ℕ) (h : rs.length = dims.length + 1) :
    ((fun l => (trimSweep dims l).1)^[k] rs).length = rs.length ∧
    ∀ i, fn ((fun l => (trimSweep dims l).1)^[k] rs) i
      = ((fun f => sweepF (fn dims) f dims.length)^[k] (fn rs)) i := by
  induction k with
  | zero => simp
  | succ k ih =>
    obtain ⟨h1, h2⟩ := ih
    rw [Function.iterate_succ_apply', Function.iterate_succ_apply']
    obtain ⟨g1, g2, -⟩ := sweep_spec dims _ (h1.trans h)
    refine ⟨g1.trans h1, fun i => ?_⟩
    rw [g2 i, show fn ((fun l => (trimSweep dims l).1)^[k] rs) = _ from funext h2]

/-! ### Facts about the closed form of a sweep -/

theorem hh_le (d f : ℕ → ℕ) (i : ℕ) : hh d f i ≤ f i := by
  cases i <;> simp [hh]

theorem sweepF_le (d f : ℕ → ℕ) (n i : ℕ) : sweepF d f n i ≤ f i := by
  unfold sweepF
  split
  · exact (min_le_left _ _).trans (hh_le d f i)
  · split
    · rename_i h; subst h; exact hh_le d f _
    · exact le_rfl

theorem iterate_le (d : ℕ → ℕ) (n k : ℕ) (f : ℕ → ℕ) (i : ℕ) :
    ((fun f => sweepF d f n)^[k] f) i ≤ f i := by
  induction k with
  | zero => simp
  | succ k ih => rw [Function.iterate_succ_apply']; exact (sweepF_le _ _ _ _).trans ih

/-- any consistent tuple below `f` stays below after a sweep -/
theorem sweepF_ge (d f c : ℕ → ℕ) (n : ℕ) (hc : ∀ i ≤ n, c i ≤ f i)
    (hL : ∀ i < n, c (i + 1) ≤ c i * d i) (hR : ∀ i < n, c i ≤ d i * c (i + 1)) :
    ∀ i ≤ n, c i ≤ sweepF d f n i := by
  have hh' : ∀ i ≤ n, c i ≤ hh d f i := by
    intro i
    induction i with
    | zero => intro h; exact hc 0 h
    | succ i ih =>
      intro h
      refine le_min (hc _ h) ((hL i (by omega)).trans ?_)
      exact Nat.mul_le_mul_right _ (ih (by omega))
  intro i hi
  unfold sweepF
  split
  · rename_i hlt
    exact le_min (hh' i hi) ((hR i hlt).trans (Nat.mul_le_mul_left _ (hh' (i + 1) (by omega))))
  · rw [if_pos (by omega)]
    have : i = n := by omega
    subst this; exact hh' i hi

theorem iterate_ge (d f c : ℕ → ℕ) (n k : ℕ) (hc : ∀ i ≤ n, c i ≤ f i)
    (hL : ∀ i < n, c (i + 1) ≤ c i * d i) (hR : ∀ i < n, c i ≤ d i * c (i + 1)) :
    ∀ i ≤ n, c i ≤ ((fun f => sweepF d f n)^[k] f) i := by
  induction k with
  | zero => exact hc
  | succ k ih => rw [Function.iterate_succ_apply']; exact sweepF_ge d _ c n ih hL hR

/-- after a sweep the left inequalities hold -/
theorem sweepF_left (d f : ℕ → ℕ) (n : ℕ) : ∀ i < n, sweepF d f n (i + 1) ≤ sweepF d f n i * d i := by
  intro i hi
  have h1 : sweepF d f n (i + 1) ≤ hh d f (i + 1) := by
    unfold sweepF
    split
    · exact min_le_left _ _
    · rw [if_pos (by omega)]
      have : i + 1 = n := by omega
      rw [this]
  refine h1.trans ?_
  unfold sweepF
  rw [if_pos hi]
  have h2 : hh d f (i + 1) ≤ hh d f i * d i := min_le_right _ _
  rcases min_choice (hh d f i) (d i * hh d f (i + 1)) with hm | hm
  · rw [hm]; exact h2
  rw [hm]
  rcases Nat.eq_zero_or_pos (d i) with h0 | h0
  · simp [h0] at h2 ⊢; exact h2
  · calc hh d f (i + 1) = 1 * hh d f (i + 1) * 1 := by simp
      _ ≤ d i * hh d f (i + 1) * d i := Nat.mul_le_mul (Nat.mul_le_mul_right _ h0) h0

theorem hh_eq (d f : ℕ → ℕ) (n : ℕ) (hL : ∀ i < n, f (i + 1) ≤ f i * d i) :
    ∀ i ≤ n, hh d f i = f i := by
  intro i
  induction i with
  | zero => intro _; rfl
  | succ i ih =>
    intro h
    rw [hh, ih (by omega)]
    exact min_eq_left (hL i (by omega))

theorem sweepF_of_left (d f : ℕ → ℕ) (n : ℕ) (hL : ∀ i < n, f (i + 1) ≤ f i * d i) :
    ∀ i ≤ n, sweepF d f n i = if i < n then min (f i) (d i * f (i + 1)) else f i := by
  intro i hi
  unfold sweepF
  split
  · rename_i h; rw [hh_eq d f n hL i hi, hh_eq d f n hL (i + 1) (by omega)]
  · have : i = n := by omega
    subst this; rw [if_pos rfl, hh_eq d f i hL i le_rfl]

/-- positivity of the pass -/
theorem hh_pos (d f : ℕ → ℕ) (n : ℕ) (hf : ∀ i ≤ n, 0 < f i) (hd : ∀ i < n, 0 < d i) :
    ∀ i ≤ n, 0 < hh d f i := by
  intro i
  induction i with
  | zero => intro h; exact hf 0 h
  | succ i ih =>
    intro h
    exact lt_min (hf _ h) (Nat.mul_pos (ih (by omega)) (hd i (by omega)))

theorem sweepF_pos (d f : ℕ → ℕ) (n : ℕ) (hf : ∀ i ≤ n, 0 < f i) (hd : ∀ i < n, 0 < d i) :
    ∀ i ≤ n, 0 < sweepF d f n i := by
  intro i hi
  unfold sweepF
  split
  · rename_i h
    exact lt_min (hh_pos d f n hf hd i hi)
      (Nat.mul_pos (hd i h) (hh_pos d f n hf hd (i + 1) (by omega)))
  · rw [if_pos (by omega)]; exact hh_pos d f n hf hd n le_rfl

theorem iterate_pos (d f : ℕ → ℕ) (n k : ℕ) (hf : ∀ i ≤ n, 0 < f i) (hd : ∀ i < n, 0 < d i) :
    ∀ i ≤ n, 0 < ((fun f => sweepF d f n)^[k] f) i := by
  induction k with
  | zero => exact hf
  | succ k ih => rw [Function.iterate_succ_apply']; exact sweepF_pos d _ n ih hd

/-- after `k+1` sweeps the right inequalities hold at the last `k+2` modes, provided the last one
held initially -/
theorem iterate_right (d f : ℕ → ℕ) (n k : ℕ) (hn : 2 ≤ n) (hf : ∀ i ≤ n, 0 < f i)
    (hd : ∀ i < n, 0 < d i) (hfn : f n = 1) (hlast : f (n - 1) ≤ d (n - 1)) :
    let g := (fun f => sweepF d f n)^[k + 1] f
    (∀ i < n, g (i + 1) ≤ g i * d i) ∧ g n = 1 ∧ ∀ i < n, n ≤ i + k + 2 → g i ≤ d i * g (i + 1) := by
  induction k with
  | zero =>
    simp only [zero_add, Function.iterate_one]
    have hgn : sweepF d f n n = 1 := by
      have h1 := sweepF_le d f n n
      have h2 := sweepF_pos d f n hf hd n le_rfl
      omega
    refine ⟨sweepF_left d f n, hgn, ?_⟩
    intro i hi hk
    by_cases h1 : i = n - 1
    · have : i + 1 = n := by omega
      rw [this, hgn, h1, mul_one]
      exact (sweepF_le d f n (n - 1)).trans hlast
    · have h2 : i + 1 = n - 1 := by omega
      have hhn : hh d f n = 1 := by
        have h1 := hh_le d f n
        have h2 := hh_pos d f n hf hd n le_rfl
        omega
      have h3 : sweepF d f n (i + 1) = hh d f (i + 1) := by
        unfold sweepF
        rw [if_pos (by omega), show i + 1 + 1 = n by omega, hhn, mul_one]
        apply min_eq_left
        rw [h2]
        exact (hh_le d f _).trans hlast
      rw [h3]
      unfold sweepF
      rw [if_pos hi]
      exact min_le_right _ _
  | succ k ih =>
    obtain ⟨hL, hgn, hR⟩ := ih
    simp only
    rw [Function.iterate_succ_apply']
    set g := (fun f => sweepF d f n)^[k + 1] f with hg
    have hs := sweepF_of_left d g n hL
    refine ⟨sweepF_left d g n, ?_, ?_⟩
    · rw [hs n le_rfl, if_neg (lt_irrefl _), hgn]
    · intro i hi hk
      have e1 : sweepF d g n (i + 1) = g (i + 1) := by
        rw [hs (i + 1) (by omega)]
        split
        · rename_i h
          exact min_eq_left (hR (i + 1) h (by omega))
        · rfl
      rw [e1, hs i (by omega), if_pos hi]
      exact min_le_right _ _

end Trim
end TTS
