import Verif.Proofs.MomentsRandom
import Verif.Proofs.MomentsGauss
import Verif.Props.Moments

/-!
# Property C69: expected norms of random tensors

`StandardDraws`, `EntryMoments` are in `Spec/Moments.lean`.
-/

namespace TTS.Props

open TTS Finset MeasureTheory

variable {Ω : Type*} [MeasurableSpace Ω] {P : Measure Ω} {g : Ω → Draw → ℝ}

theorem prod_getD (l : List ℕ) : ∏ k ∈ range l.length, ((l.getD k 0 : ℕ) : ℝ) = (l.prod : ℕ) := by
  induction l with
  | nil => simp
  | cons n l ih =>
    rw [List.length_cons, prod_range_succ']
    simp only [List.getD_cons_succ, List.getD_cons_zero, ih, List.prod_cons]
    push_cast; ring

theorem bonds_pos {rk : List ℕ} (h : ∀ r ∈ rk, 0 < r) {k : ℕ} (hk : k ≤ rk.length + 1) : 0 < (Spec.bonds rk).getD k 0 := by
  have hlt : k < (Spec.bonds rk).length := by simp [Spec.bonds]; omega
  rw [getD_eq hlt]
  have := List.getElem_mem hlt
  generalize (Spec.bonds rk)[k] = y at this
  simp only [Spec.bonds, List.mem_cons, List.mem_append, List.not_mem_nil, or_false] at this
  rcases this with rfl | h' | rfl
  · omega
  · exact h _ h'
  · omega

/-- The ranks of a random tensor train. -/
def randomRanks (shape : List ℕ) (rank : RankArg) (trim : Bool) : List ℕ :=
  if trim then trimRanks shape (askedRanks shape rank) else askedRanks shape rank

theorem randomRanks_pos {shape : List ℕ} {rank : RankArg} (t : Bool) (hl : (askedRanks shape rank).length + 1 = shape.length)
    (p1 : ∀ n ∈ shape, 0 < n) (p2 : ∀ r ∈ askedRanks shape rank, 0 < r) : ∀ r ∈ randomRanks shape rank t, 0 < r := by
  unfold randomRanks
  split
  · intro r hr
    obtain ⟨i, hi, rfl⟩ := List.mem_iff_getElem.1 hr
    have hi' : i < (askedRanks shape rank).length := by rwa [trimRanks_length _ _ hl] at hi
    have := C03_pos shape (askedRanks shape rank) hl p1 p2 i hi'
    rw [← getD_eq hi 0]
    exact this
  · exact p2

/-- **C69, tensor trains.** The entries of `TensorTrain.random` (positive sizes and ranks, not orthogonalised) are
uncorrelated and all have the same mean square: one divided by the number of entries for `"norm-1"`, so that the squared
norm is one on average; one for `"norm-preserve"`. -/
theorem C69_tt (hg : StandardDraws P g) (env : Env ℝ) (hQ : QRContract env)
    (hinv : ∀ r, 0 < r → env.invSqrt r ^ 2 * r = 1) (shape : List ℕ) (rank : RankArg) (seed : ℕ)
    (trim : Option Bool) (goal : NormGoal) (hl : (askedRanks shape rank).length + 1 = shape.length)
    (hgo : goal ≠ .other) (p1 : ∀ n ∈ shape, 0 < n) (p2 : ∀ r ∈ askedRanks shape rank, 0 < r)
    (hdis : ∀ i < shape.length, ∀ j < shape.length,
      env.genState seed shape.length i = env.genState seed shape.length j → i = j) :
    ∃ X : Ω → TT ℝ, (∀ ω, TT.random (env.withDraws (g ω)) shape rank seed false trim goal = .ok (X ω)) ∧
      EntryMoments P (fun ω => (X ω).toNumpy) shape (if goal = .norm1 then 1 / (shape.prod : ℝ) else 1) ∧
      ∫ ω, normSq (X ω).toNumpy ∂P = if goal = .norm1 then 1 else (shape.prod : ℝ) := by
  have ok := fun ω => C64 (env.withDraws (g ω)) hQ shape rank seed false trim goal hl (by simp) hgo (by simp)
  choose X h1 h2 h3 h4 h5 _ using ok
  set rk := randomRanks shape rank (trim.getD false) with hrk
  have h4 : ∀ ω, (X ω).rank = rk := fun ω => h4 ω
  have hrl : rk.length + 1 = shape.length := by
    rw [hrk]; unfold randomRanks; split
    · rw [trimRanks_length _ _ hl, hl]
    · exact hl
  have hpos := randomRanks_pos (trim.getD false) hl p1 p2
  rw [← hrk] at hpos
  have hsp : ∀ k < shape.length, 0 < shape.getD k 0 := fun k hk => by
    rw [getD_eq hk]; exact p1 _ (List.getElem_mem hk)
  set c : ℕ → ℝ := fun k => env.invSqrt (if goal = .norm1 then (Spec.bonds rk).getD k 0 * shape.getD k 0
                else (Spec.bonds rk).getD k 0) with hc
  have hcs : ∀ k < shape.length, ((Spec.bonds rk).getD k 0 : ℝ) * c k ^ 2
      = if goal = .norm1 then ((shape.getD k 0 : ℕ) : ℝ)⁻¹ else 1 := by
    intro k hk
    have hb := bonds_pos hpos (k := k) (by omega)
    rw [hc]
    beta_reduce
    split
    · have := hinv ((Spec.bonds rk).getD k 0 * shape.getD k 0) (Nat.mul_pos hb (hsp k hk))
      have hn : ((shape.getD k 0 : ℕ) : ℝ) ≠ 0 := by exact_mod_cast (hsp k hk).ne'
      refine eq_inv_of_mul_eq_one_left ?_
      rw [← this]; push_cast; ring
    · rw [mul_comm]; exact hinv _ hb
  have iso := chain_iso hg shape (fun k => (Spec.bonds rk).getD k 0) (env.genState seed shape.length) c rfl shape.length
    le_rfl hdis
  have hv : ∏ k ∈ range shape.length, (((Spec.bonds rk).getD k 0 : ℕ) * c k ^ 2)
      = if goal = .norm1 then 1 / (shape.prod : ℝ) else 1 := by
    rw [prod_congr rfl fun k hk => hcs k (mem_range.1 hk)]
    split
    · rw [prod_inv_distrib, prod_getD, one_div]
    · exact prod_const_one
  have hlast : (Spec.bonds rk).getD shape.length 0 = 1 := by
    rw [← hrl]; simp [Spec.bonds]
  rw [hv, List.take_length] at iso
  beta_reduce at iso
  rw [hlast] at iso
  have hentry : ∀ ω p, InR shape p → (X ω).toNumpy.get p = prodTo (fun k => (Spec.bonds rk).getD k 0)
      (fun k a i b => g ω (.normal (env.genState seed shape.length k)
        ((Spec.bonds rk).getD k 0 * shape.getD k 0 * (Spec.bonds rk).getD (k + 1) 0)
        ((a * shape.getD k 0 + i) * (Spec.bonds rk).getD (k + 1) 0 + b)) * c k) shape.length p 0 := by
    intro ω p hp
    have hcl : (X ω).cores.length = shape.length := by rw [← h3 ω]; simp [TT.shape]
    have hco := valid_cores (h2 ω)
    rw [h3 ω, h4 ω] at hco
    rw [TT.toNumpy_get (h2 ω), ttEntry]
    have := cores_prodTo hco rfl shape.length (by omega) p hp.length 0 (by rw [hlast]; omega)
    rw [← hcl, List.take_length] at this
    rw [this, hcl]
    refine prodTo_congr_on (sh := shape) le_rfl (fun k hk a ha i hi b hb => ?_) p (by rwa [List.take_length]) 0
      (by rw [hlast]; omega)
    have := h5 ω k hk (.inl rfl) a (by rw [h4 ω]; exact ha) i hi b (by rw [h4 ω]; exact hb)
    rw [h4 ω] at this
    exact this
  have hE : EntryMoments P (fun ω => (X ω).toNumpy) shape (if goal = .norm1 then 1 / (shape.prod : ℝ) else 1) := by
    refine ⟨fun ω => (TT.toNumpy_shape (h2 ω)).trans (h3 ω), fun p q hp hq => ?_⟩
    have e1 := iso.integrable p q 0 0 hp hq (by omega) (by omega)
    have e2 := iso.moment p q 0 0 hp hq (by omega) (by omega)
    simp only [hentry _ p hp, hentry _ q hq]
    refine ⟨e1, e2.trans ?_⟩
    simp
  refine ⟨X, h1, hE, hE.norm.trans ?_⟩
  split
  · have : (shape.prod : ℝ) ≠ 0 := by
      exact_mod_cast (List.prod_pos p1).ne'
    field_simp
  · rw [mul_one]

/-- **C69, orthogonalised tensor trains.** Here too the squared norm is one on average for `"norm-1"`; for
`"norm-preserve"` it is the size of the last mode. -/
theorem C69_tt_orth (hg : StandardDraws P g) (env : Env ℝ) (hQ : QRContract env)
    (hinv : ∀ r, 0 < r → env.invSqrt r ^ 2 * r = 1) (shape : List ℕ) (rank : RankArg) (seed : ℕ)
    (trim : Option Bool) (ht : trim ≠ some false) (goal : NormGoal) (hl : (askedRanks shape rank).length + 1 = shape.length)
    (hgo : goal ≠ .other) (p1 : ∀ n ∈ shape, 0 < n) (p2 : ∀ r ∈ askedRanks shape rank, 0 < r) :
    ∃ X : Ω → TT ℝ, (∀ ω, TT.random (env.withDraws (g ω)) shape rank seed true trim goal = .ok (X ω)) ∧
      ∫ ω, normSq (X ω).toNumpy ∂P = if goal = .norm1 then 1 else (shape.getLastD 0 : ℝ) := by
  have ok := fun ω => C64 (env.withDraws (g ω)) hQ shape rank seed true trim goal hl (fun _ => ht) hgo (fun _ => ⟨p1, p2⟩)
  choose X h1 h2 h3 h4 h5 _ using ok
  set rk := randomRanks shape rank (trim.getD true) with hrk
  have h4 : ∀ ω, (X ω).rank = rk := fun ω => h4 ω
  have hrl : rk.length + 1 = shape.length := by
    rw [hrk]; unfold randomRanks; split
    · rw [trimRanks_length _ _ hl, hl]
    · exact hl
  have hpos := randomRanks_pos (trim.getD true) hl p1 p2
  rw [← hrk] at hpos
  obtain ⟨d, hd⟩ : ∃ d, shape.length = d + 1 := ⟨shape.length - 1, by omega⟩
  have hsp : 0 < shape.getD d 0 := by
    rw [getD_eq (by omega)]; exact p1 _ (List.getElem_mem (by omega))
  have hlast : (Spec.bonds rk).getD (d + 1) 0 = 1 := by
    rw [← hd, ← hrl]; simp [Spec.bonds]
  have hb := bonds_pos hpos (k := d) (by omega)
  set r := (Spec.bonds rk).getD d 0 with hr
  set n := shape.getD d 0 with hn
  have hnl : shape.getLastD 0 = n := by
    rw [hn, List.getLastD_eq_getLast?, List.getLast?_eq_getElem?, List.getD_eq_getElem?_getD, hd]; rfl
  set c : ℝ := env.invSqrt (if goal = .norm1 then r * n else r) with hc
  -- the last core
  have hshape : ∀ ω, ((X ω).cores.getD d (ND.zeros [])).shape = [r, n, 1] := by
    intro ω
    have hcl : (X ω).cores.length = shape.length := by rw [← h3 ω]; simp [TT.shape]
    have := valid_cores (h2 ω) d (by omega)
    rw [h3 ω, h4 ω] at this
    rw [this]
    show [_, _, (Spec.bonds rk).getD (d + 1) 0] = _
    rw [hlast]
  have hE : EntryMoments P (fun ω => (X ω).cores.getD d (ND.zeros [])) [r, n, 1] (c ^ 2) := by
    refine ⟨hshape, ?_⟩
    intro p q hp hq
    match p, q, hp, hq with
    | [a, i, b], [a', i', b'], hp, hq =>
      obtain ⟨ha, hi, hb', -⟩ := hp
      obtain ⟨ha', hi', hb'', -⟩ := hq
      obtain rfl : b = 0 := by omega
      obtain rfl : b' = 0 := by omega
      have e : ∀ a < r, ∀ i < n, ∀ ω, ((X ω).cores.getD d (ND.zeros [])).get [a, i, 0]
          = g ω (.normal (env.genState seed shape.length d) (r * n * 1) ((a * n + i) * 1 + 0)) * c := by
        intro a ha i hi ω
        have := h5 ω d (by omega) (.inr hd.symm) a (by rw [h4 ω]; exact ha) i hi 0 (by rw [h4 ω, hlast]; omega)
        rw [h4 ω] at this
        rw [this]
        show g ω (.normal _ _ _) * _ = _
        rw [hlast]
        rfl
      have hT : Draw.Compatible ((range (r * n)).image fun pos => Draw.normal (env.genState seed shape.length d) (r * n * 1) pos) := by
        intro s n1 k1 n2 k2 h1 h2
        simp only [mem_image, Draw.normal.injEq] at h1 h2
        obtain ⟨_, _, -, e1, _⟩ := h1
        obtain ⟨_, _, -, e2, _⟩ := h2
        rw [← e1, ← e2]
      have hp := hg.pair (x := .normal (env.genState seed shape.length d) (r * n * 1) ((a * n + i) * 1 + 0))
        (y := .normal (env.genState seed shape.length d) (r * n * 1) ((a' * n + i') * 1 + 0)) hT
        (mem_image.2 ⟨_, mem_range.2 (by rw [mul_one, add_zero]; exact pos_lt ha hi), rfl⟩)
        (mem_image.2 ⟨_, mem_range.2 (by rw [mul_one, add_zero]; exact pos_lt ha' hi'), rfl⟩)
      have e3 : (fun ω => ((X ω).cores.getD d (ND.zeros [])).get [a, i, 0] * ((X ω).cores.getD d (ND.zeros [])).get [a', i', 0])
          = fun ω => (g ω (.normal (env.genState seed shape.length d) (r * n * 1) ((a * n + i) * 1 + 0))
            * g ω (.normal (env.genState seed shape.length d) (r * n * 1) ((a' * n + i') * 1 + 0))) * c ^ 2 := by
        funext ω
        rw [e a ha i hi, e a' ha' i' hi']; ring
      rw [e3]
      refine ⟨hp.1.mul_const _, ?_⟩
      rw [integral_mul_const, hp.2]
      by_cases h : a = a' ∧ i = i'
      · rw [if_pos (by rw [h.1, h.2]), if_pos (by rw [h.1, h.2]), one_mul]
      · rw [if_neg, if_neg, zero_mul]
        · intro hh
          simp only [List.cons.injEq, and_true] at hh
          exact h hh
        · intro hh
          have hh := (Draw.normal.inj hh).2.2
          rw [mul_one, mul_one, add_zero, add_zero] at hh
          exact h ⟨by rw [← mul_add_div (a := a) hi, hh, mul_add_div hi'], by rw [← mul_add_mod' (a := a) hi, hh, mul_add_mod' hi']⟩
  refine ⟨X, h1, ?_⟩
  have hno : ∀ ω, normSq (X ω).toNumpy = normSq ((X ω).cores.getD d (ND.zeros [])) := by
    intro ω
    rw [C64_norm (env.withDraws (g ω)) hQ shape rank seed trim goal hl ht hgo p1 p2 (X ω) (h1 ω)]
    have hcl : (X ω).cores.length = shape.length := by rw [← h3 ω]; simp [TT.shape]
    rw [List.getLastD_eq_getLast?, List.getLast?_eq_getElem?, List.getD_eq_getElem?_getD, hcl, hd]
    rfl
  simp only [hno]
  rw [hE.norm, hnl]
  have e1 : (([r, n, 1] : List ℕ).prod : ℝ) = r * n := by simp
  rw [e1, hc]
  split
  · have := hinv (r * n) (Nat.mul_pos hb hsp)
    push_cast at this
    rw [← this]; ring
  · have := hinv r hb
    rw [mul_right_comm, mul_comm (r : ℝ), this, one_mul]

/-- **C69, CP tensors.** The entries of `CPTensor.random` are uncorrelated with mean square `rank / size`, so the squared
norm is `rank` on average. -/
theorem C69_cp (hg : StandardDraws P g) (env : Env ℝ) (hinv : ∀ r, 0 < r → env.invSqrt r ^ 2 * r = 1)
    (shape : List ℕ) (rank seed : ℕ) (h0 : shape ≠ []) (p1 : ∀ n ∈ shape, 0 < n)
    (hdis : ∀ i < shape.length, ∀ j < shape.length,
      env.genState seed shape.length i = env.genState seed shape.length j → i = j) :
    ∃ X : Ω → CP ℝ, (∀ ω, CP.random (env.withDraws (g ω)) shape rank seed = .ok (X ω)) ∧
      EntryMoments P (fun ω => (X ω).toNumpy) shape (rank / (shape.prod : ℝ)) ∧
      ∫ ω, normSq (X ω).toNumpy ∂P = rank := by
  have ok := fun ω => (C65_cp (env.withDraws (g ω)) shape rank seed).1 h0
  choose X h1 h2 h3 h4 h5 using ok
  have hlen : 1 ≤ shape.length := List.length_pos_of_ne_nil h0
  have iso := cp_iso hg shape rank (env.genState seed shape.length) (fun k => env.invSqrt (shape.getD k 0)) shape.length
    le_rfl hdis hlen
  have hv : ∏ k ∈ range shape.length, (env.invSqrt (shape.getD k 0)) ^ 2 = 1 / (shape.prod : ℝ) := by
    rw [one_div, ← prod_getD, ← prod_inv_distrib]
    refine prod_congr rfl fun k hk => ?_
    have hsp : 0 < shape.getD k 0 := by
      rw [getD_eq (mem_range.1 hk)]; exact p1 _ (List.getElem_mem _)
    have hn : ((shape.getD k 0 : ℕ) : ℝ) ≠ 0 := by exact_mod_cast hsp.ne'
    exact eq_inv_of_mul_eq_one_left (hinv _ hsp)
  rw [hv, List.take_length] at iso
  have hentry : ∀ ω p, InR shape p → (X ω).toNumpy.get p = ∑ b ∈ range rank, cpTo
      (fun k i b => g ω (.normal (env.genState seed shape.length k) (shape.getD k 0 * rank) (i * rank + b))
        * env.invSqrt (shape.getD k 0)) shape.length p b := by
    intro ω p hp
    have hcl : (X ω).cores.length = shape.length := by rw [← h3 ω]; simp [CP.shape]
    rw [CP.toNumpy_get (h2 ω), cpEntry, h4 ω]
    refine sum_congr rfl fun b hb => ?_
    have := cpProd_cpTo (X ω).cores shape.length (by omega) p hp.length b
    rw [← hcl, List.take_length] at this
    rw [this, hcl]
    exact cpTo_congr_on (sh := shape) (r := rank) le_rfl (fun k hk i hi b hb => h5 ω k hk i hi b hb) p
      (by rwa [List.take_length]) b (mem_range.1 hb)
  have hE : EntryMoments P (fun ω => (X ω).toNumpy) shape (rank / (shape.prod : ℝ)) := by
    refine ⟨fun ω => (CP.toNumpy_shape (h2 ω)).trans (h3 ω), fun p q hp hq => ?_⟩
    simp only [hentry _ p hp, hentry _ q hq, sum_mul_sum]
    have hi : ∀ a ∈ range rank, ∀ b ∈ range rank, _ := fun a ha b hb =>
      iso.integrable p q a b hp hq (mem_range.1 ha) (mem_range.1 hb)
    refine ⟨integrable_finsetSum _ fun a ha => integrable_finsetSum _ fun b hb => hi a ha b hb, ?_⟩
    rw [integral_finsetSum _ fun a ha => integrable_finsetSum _ fun b hb => hi a ha b hb,
      sum_congr rfl fun a ha => integral_finsetSum _ fun b hb => hi a ha b hb,
      sum_congr rfl fun a ha => sum_congr rfl fun b hb => iso.moment p q a b hp hq (mem_range.1 ha) (mem_range.1 hb)]
    by_cases h : p = q
    · simp only [h, true_and, if_true]
      rw [sum_congr rfl fun a ha => Finset.sum_ite_eq _ a _]
      rw [sum_congr rfl fun a ha => if_pos ha]
      simp [div_eq_mul_inv]
    · simp [h]
  refine ⟨X, h1, hE, hE.norm.trans ?_⟩
  have : (shape.prod : ℝ) ≠ 0 := by
    exact_mod_cast (List.prod_pos p1).ne'
  field_simp

/-- an array of different draws of one generator -/
theorem array_moments (hg : StandardDraws P g) {X : Ω → ND ℝ} {sh : List ℕ} {s : ℕ} (hsh : ∀ ω, (X ω).shape = sh)
    (hX : ∀ ω, ∀ k < sh.prod, (X ω).get (unravel sh k) = g ω (.normal s sh.prod k)) : EntryMoments P X sh 1 := by
  refine ⟨hsh, fun p q hp hq => ?_⟩
  have e : ∀ p, InR sh p → ∀ ω, (X ω).get p = g ω (.normal s sh.prod (ravel sh p)) := by
    intro p hp ω
    rw [← hX ω _ (ravel_lt hp), unravel_ravel hp]
  simp only [e p hp, e q hq]
  have hT : Draw.Compatible ((range sh.prod).image fun pos => Draw.normal s sh.prod pos) := by
    intro s n1 k1 n2 k2 h1 h2
    simp only [mem_image, Draw.normal.injEq] at h1 h2
    obtain ⟨_, _, -, e1, _⟩ := h1
    obtain ⟨_, _, -, e2, _⟩ := h2
    rw [← e1, ← e2]
  have := hg.pair hT (mem_image.2 ⟨_, mem_range.2 (ravel_lt hp), rfl⟩) (mem_image.2 ⟨_, mem_range.2 (ravel_lt hq), rfl⟩)
  refine ⟨this.1, this.2.trans ?_⟩
  by_cases h : p = q
  · rw [if_pos h, if_pos (by rw [h])]
  · rw [if_neg h, if_neg]
    intro hh
    have hh := (Draw.normal.inj hh).2.2
    exact h (by rw [← unravel_ravel hp, hh, unravel_ravel hq])

/-- **C69, dense tensors**: uncorrelated entries of mean square one. -/
theorem C69_dense (hg : StandardDraws P g) (env : Env ℝ) (shape : List ℕ) (seed : ℕ) (h0 : shape ≠ []) :
    ∃ X : Ω → ND ℝ, (∀ ω, denseRandom (env.withDraws (g ω)) shape seed = .ok (X ω)) ∧ EntryMoments P X shape 1 ∧
      ∫ ω, normSq (X ω) ∂P = shape.prod := by
  have ok := fun ω => (C65_dense (env.withDraws (g ω)) shape seed).1 h0
  choose X h1 h2 h3 using ok
  have hE := array_moments hg h2 h3
  exact ⟨X, h1, hE, by rw [hE.norm, mul_one]⟩

/-- **C69, Tucker tensors**: the squared norm is the product of the ranks (cut to the mode sizes) on average. -/
theorem C69_tucker (hg : StandardDraws P g) (env : Env ℝ) (hQ : QRContract env) (shape : List ℕ) (rank : RankArg)
    (seed : ℕ) (h0 : shape ≠ []) (hr : tuckerAsked shape rank ≠ []) :
    ∃ X : Ω → Tucker ℝ, (∀ ω, Tucker.random (env.withDraws (g ω)) shape rank seed = .ok (X ω)) ∧
      ∫ ω, normSq (X ω).toNumpy ∂P = (List.zipWith min (tuckerAsked shape rank) shape).prod := by
  have ok := fun ω => C65_tucker (env.withDraws (g ω)) hQ shape rank seed h0 hr
  choose X h1 h2 _ h4 h5 _ using ok
  refine ⟨X, h1, ?_⟩
  have hno : ∀ ω, normSq (X ω).toNumpy = normSq (X ω).core := fun ω =>
    C65_tucker_norm (env.withDraws (g ω)) hQ shape rank seed (X ω) (h1 ω)
  simp only [hno]
  have hE := array_moments hg (X := fun ω => (X ω).core) (sh := List.zipWith min (tuckerAsked shape rank) shape)
    (s := env.genState seed 1 0) (fun ω => by rw [← h4 ω]; exact (h2 ω).2) (fun ω k hk => by
      have := h5 ω k (by rw [h4 ω]; exact hk)
      rw [h4 ω] at this
      exact this)
  rw [hE.norm, mul_one]

theorem sum_hit : ∀ (es : List (List ℕ × ℝ)), (es.map Prod.fst).Nodup → ∀ {x}, x ∈ es →
    (es.map fun e => if e.1 = x.1 then e.2 else 0).sum = x.2
  | e :: es, hn, x, hx => by
    simp only [List.map_cons, List.nodup_cons] at hn
    rw [List.map_cons, List.sum_cons]
    rcases List.mem_cons.1 hx with rfl | hx'
    · rw [if_pos rfl, List.sum_eq_zero, add_zero]
      intro v hv
      obtain ⟨y, hy, rfl⟩ := List.mem_map.1 hv
      rw [if_neg]
      intro h; exact hn.1 (List.mem_map.2 ⟨y, hy, h⟩)
    · rw [if_neg, zero_add, sum_hit es hn.2 hx']
      intro h; exact hn.1 (List.mem_map.2 ⟨x, hx', h.symm⟩)

/-- the values of distinct entries give the norm -/
theorem sparse_normSq {X : Sparse ℝ} (h : X.Valid) (hd : X.Distinct) :
    normSq X.toNumpy = ((X.entries.map Prod.snd).map fun v => v ^ 2).sum := by
  have e : normSq X.toNumpy = innerND X.toNumpy X.toNumpy := by
    unfold normSq innerND
    exact sumIdx_congr fun i _ => by ring
  rw [e, sparse_inner h hd, List.map_map]
  congr 1
  refine List.map_congr_left fun x hx => ?_
  have : X.toNumpy.get x.1 = x.2 := by
    rw [Sparse.toNumpy_get h hd]
    unfold sparseEntry
    exact sum_hit X.entries hd hx
  rw [this]
  show x.2 * x.2 = x.2 ^ 2
  ring

/-- **C69, sparse tensors**: the squared norm is `nnz` on average. -/
theorem C69_sparse (hg : StandardDraws P g) (env : Env ℝ) (choice : Option ℕ → ℕ → ℕ → List ℕ) (hc : ChoiceContract choice)
    (fresh : ℕ) (shape : List ℕ) (nnz : ℕ) (seed : Option ℕ) (h0 : shape ≠ []) (hn : nnz ≤ shape.prod)
    (hs : ∀ s, seed = some s → s < 2 ^ 32) :
    ∃ X : Ω → Sparse ℝ, (∀ ω, Sparse.random (env.withDraws (g ω)) choice fresh shape nnz seed = .ok (X ω)) ∧
      ∫ ω, normSq (X ω).toNumpy ∂P = nnz := by
  have ok := fun ω => (C65_sparse (env.withDraws (g ω)) choice hc fresh shape nnz seed).1 h0 hn hs
  choose X h1 _ _ h4 h5 h6 using ok
  refine ⟨X, h1, ?_⟩
  have e : ∀ ω, normSq (X ω).toNumpy = ∑ k ∈ range nnz, g ω (.normal (seed.getD fresh) nnz k) ^ 2 := by
    intro ω
    rw [sparse_normSq (h4 ω) (h5 ω), h6 ω, List.map_map, ← List.sum_toFinset _ List.nodup_range]
    simp only [List.toFinset_range]
    rfl
  simp only [e]
  rw [integral_finsetSum _ fun k _ => hg.square _, sum_congr rfl fun k _ => hg.variance _]
  simp

/-! ### Examples: standard normal draws -/

/-- `env8` with the real scaling factor and different generators for different seeds. -/
noncomputable def env68 : Env ℝ := { env8 with invSqrt := fun r => 1 / √r, genState := fun s _ i => 1000 * s + i }

theorem env68_inv : ∀ r, 0 < r → env68.invSqrt r ^ 2 * r = 1 := by
  intro r hr
  show (1 / √(r : ℝ)) ^ 2 * r = 1
  rw [div_pow, Real.sq_sqrt (by positivity)]
  have : (r : ℝ) ≠ 0 := by exact_mod_cast hr.ne'
  field_simp

theorem env68_qr : QRContract env68 := qrChoice_contract rfl

theorem env68_distinct (s d : ℕ) : env68.DistinctStates s d := by
  intro i _ j _ h
  have : 1000 * (s % (2 ^ 32 - 1)) + i = 1000 * (s % (2 ^ 32 - 1)) + j := h
  omega

theorem env68_apart : env68.SeedsApart [2, 3, 2] 7 (env68.rightSeed 7 3) where
  states i hi j hj := by
    have e : env68.rightSeed 7 3 = 10 := by decide
    rw [e]
    have : i < 3 := hi
    show 1000 * (7 % (2 ^ 32 - 1)) + i ≠ 1000 * (10 % (2 ^ 32 - 1)) + j
    have : j < 3 := hj
    omega
  streams := by
    have e : env68.rightSeed 7 3 = 10 := by decide
    rw [e]
    refine two_cases (two_cases ?_ ?_) (two_cases ?_ ?_) <;> decide

/-- sketches with seed 7 of a sum of a train and a sparse tensor of shape `2 × 3 × 2` -/
example : ∃ (S : (Draw → ℝ) → Sketched ℝ) (l r : List ℕ), (∀ ω, streamSketch (env68.withDraws ω) x66 (.int 2) (.int 3) { seed := some 7 } = .ok (S ω)) ∧
    (∀ ω, (S ω).leftRank = l ∧ (S ω).rightRank = r) ∧
    ∫ ω, normSq ((S ω).sketch.omega.getD 0 (ND.zeros [])) ∂normalDraws = l.getD 0 0 * r.getD 0 0 * normSq x66.toNumpy := by
  obtain ⟨S, S', l, r, h1, h2, -, -, -, -, h3⟩ := C68_stream normalDraws_standard env68 env68_inv x66 x66 (.int 2) (.int 3) (some 7)
    none none x66_valid (by simp [x66, Tensor.NonEmpty]) x66_distinct x66_exact x66_valid (by simp [x66, Tensor.NonEmpty])
    x66_distinct x66_exact rfl (by decide) rfl rfl (.inl (by decide)) (by decide) (by decide) (by decide) (by decide)
    (.inl rfl) (.inl rfl) (fun t _ D hD => supports_tt D (by rcases hD with h | h <;> exact h) t)
    (env68_distinct _ _) (env68_distinct _ _) env68_apart
  obtain rfl : S = S' := by
    funext ω
    exact Except.ok.inj ((h1 ω).symm.trans (h2 ω))
  refine ⟨S, l, r, h1, fun ω => (h3.shape ω).2, (C68_norm h3).1 0 ?_⟩
  rw [Tensor.toNumpy_shape x66_valid]
  decide

/-- random tensors of shape `2 × 3 × 4` -/
example : (∃ X : (Draw → ℝ) → TT ℝ, (∀ ω, TT.random (env68.withDraws ω) [2, 3, 4] (.int 2) 1 false none .norm1 = .ok (X ω)) ∧
      ∫ ω, normSq (X ω).toNumpy ∂normalDraws = 1) ∧
    (∃ X : (Draw → ℝ) → TT ℝ, (∀ ω, TT.random (env68.withDraws ω) [2, 3, 4] (.int 2) 1 true none .preserve = .ok (X ω)) ∧
      ∫ ω, normSq (X ω).toNumpy ∂normalDraws = 4) ∧
    (∃ X : (Draw → ℝ) → CP ℝ, (∀ ω, CP.random (env68.withDraws ω) [2, 3, 4] 5 1 = .ok (X ω)) ∧
      ∫ ω, normSq (X ω).toNumpy ∂normalDraws = 5) := by
  have hd : ∀ i < 3, ∀ j < 3, env68.genState 1 3 i = env68.genState 1 3 j → i = j := fun i _ j _ h => by
    have : 1000 * 1 + i = 1000 * 1 + j := h
    omega
  obtain ⟨X, h1, -, h2⟩ := C69_tt normalDraws_standard env68 env68_qr env68_inv [2, 3, 4] (.int 2) 1 none .norm1 rfl
    (by decide) (by decide) (by decide) hd
  obtain ⟨Y, g1, g2⟩ := C69_tt_orth normalDraws_standard env68 env68_qr env68_inv [2, 3, 4] (.int 2) 1 none (by simp)
    .preserve rfl (by decide) (by decide) (by decide)
  obtain ⟨Z, f1, -, f2⟩ := C69_cp normalDraws_standard env68 env68_inv [2, 3, 4] 5 1 (by simp) (by decide) hd
  refine ⟨⟨X, h1, by simpa using h2⟩, ⟨Y, g1, ?_⟩, ⟨Z, f1, by simpa using f2⟩⟩
  rw [g2, if_neg (by decide)]
  simp

end TTS.Props
