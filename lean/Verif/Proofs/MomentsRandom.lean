import Verif.Proofs.MomentsDRM
import Verif.Props.Random2
import Verif.Props.Lossless

/-!
# Second moments of random tensors
-/

namespace TTS

open Finset MeasureTheory ProbabilityTheory Props

variable {Ω : Type*} [MeasurableSpace Ω] {P : Measure Ω} {g : Ω → Draw → ℝ}

theorem EntryMoments.norm {X : Ω → ND ℝ} {sh : List ℕ} {v : ℝ} (h : EntryMoments P X sh v) :
    ∫ ω, normSq (X ω) ∂P = sh.prod * v := by
  unfold normSq
  simp only [h.shape, pow_two]
  rw [(integrable_sumIdx sh (fun p ω => (X ω).get p * (X ω).get p) fun p hp => (h.entry p p hp hp).1).2,
    sumIdx_congr fun p hp => (h.entry p p hp hp).2.trans (if_pos rfl), ← sum_unravel]
  simp

theorem valid_cores {K : Type*} [CommSemiring K] {X : TT K} (h : X.Valid) :
    Cores X.cores (fun k => (Spec.bonds X.rank).getD k 0) fun k => X.shape.getD k 0 := by
  obtain ⟨x, n, hc, h0, h1⟩ := exists_cores h.2
  have hb : ∀ k ≤ X.cores.length, (Spec.bonds X.rank).getD k 0 = x k := by
    intro k hk
    rw [bonds_rank h]
    rcases hk.lt_or_eq with hk | rfl
    · rw [List.getD_append _ _ _ _ (by simpa using hk), getD_map_lt _ _ k (by simpa using hk) (ND.zeros [])]
      exact (dim_of_shape3 (hc k hk)).1
    · rw [h1, List.getD_append_right _ _ _ _ (by simp)]; simp
  intro k hk
  beta_reduce
  rw [hb k hk.le, hb (k + 1) hk, hc k hk]
  have : X.shape.getD k 0 = n k := by
    unfold TT.shape
    rw [getD_map_lt _ _ k (by simpa using hk) (ND.zeros [])]
    exact (dim_of_shape3 (hc k hk)).2.1
  rw [this]

theorem cores_prodTo {cs : List (ND ℝ)} {rk n : ℕ → ℕ} (h : Cores cs rk n) (h0 : rk 0 = 1) (m : ℕ) (hm : m ≤ cs.length)
    (p : List ℕ) (hp : p.length = m) (a : ℕ) (ha : a < rk m) :
    ttVal (cs.take m) p 0 a = prodTo rk (fun k a i b => (cs.getD k (ND.zeros [])).get [a, i, b]) m p a := by
  induction m generalizing p a with
  | zero =>
    have hp' : p = [] := List.length_eq_zero_iff.1 hp
    subst hp'
    have : a = 0 := by omega
    subst this
    simp [prodTo, ttVal]
  | succ m ih =>
    obtain ⟨q, i, hq, rfl⟩ : ∃ q i, q.length = m ∧ p = q ++ [i] := by
      have hl : p.take m ++ p.drop m = p := List.take_append_drop _ _
      obtain ⟨i, hi⟩ : ∃ i, p.drop m = [i] := by
        rw [← List.length_eq_one_iff, List.length_drop]; omega
      exact ⟨p.take m, i, by rw [List.length_take]; omega, by rw [← hi, hl]⟩
    rw [h.val_succ h0 m (by omega) q hq]
    simp only [prodTo]
    rw [List.take_left' hq, getD_snoc hq]
    refine sum_congr rfl fun b hb => ?_
    rw [ih (by omega) q hq b (mem_range.1 hb)]

/-- The product with an independent factor of a CP tensor: `M'[p i, b] = M[p, b] C[i, b]`. -/
theorem IsoOn.stepCP (hg : StandardDraws P g) {T T' : Finset Draw} (hTT : Disjoint T T') (hc : Draw.Compatible (T ∪ T'))
    {sh : List ℕ} {n r : ℕ} {v c : ℝ} {M : (Draw → ℝ) → List ℕ → ℕ → ℝ} (hM : IsoOn P g T sh r v M)
    (D : ℕ → ℕ → Draw) (hD : ∀ i < n, ∀ b < r, D i b ∈ T')
    (hinj : ∀ i < n, ∀ b < r, ∀ i' < n, ∀ b' < r, D i b = D i' b' → i = i' ∧ b = b')
    (M' : (Draw → ℝ) → List ℕ → ℕ → ℝ)
    (hM' : ∀ g p i b, InR sh p → i < n → b < r → M' g (p ++ [i]) b = M g p b * (g (D i b) * c)) :
    IsoOn P g (T ∪ T') (sh ++ [n]) r (v * c ^ 2) M' := by
  have hsplit : ∀ {p}, InR (sh ++ [n]) p → ∃ q i, InR sh q ∧ i < n ∧ p = q ++ [i] := by
    intro p hp
    have hlen := hp.length
    rw [List.length_append, List.length_singleton] at hlen
    have e : p = p.take sh.length ++ p.drop sh.length := (List.take_append_drop _ _).symm
    obtain ⟨i, hi⟩ : ∃ i, p.drop sh.length = [i] := by
      rw [← List.length_eq_one_iff, List.length_drop]; omega
    rw [hi] at e
    rw [e, inR_append (by rw [List.length_take]; omega)] at hp
    exact ⟨_, i, hp.1, hp.2.1, e⟩
  have hT'c : Draw.Compatible T' := hc.mono subset_union_right
  have term : ∀ p q i j b b', InR sh p → InR sh q → i < n → j < n → b < r → b' < r →
      Integrable (fun ω => M' (g ω) (p ++ [i]) b * M' (g ω) (q ++ [j]) b') P ∧
      ∫ ω, M' (g ω) (p ++ [i]) b * M' (g ω) (q ++ [j]) b' ∂P = if p ++ [i] = q ++ [j] ∧ b = b' then v * c ^ 2 else 0 := by
    intro p q i j b b' hp hq hi hj hb hb'
    have h1 := hg.pair hT'c (hD i hi b hb) (hD j hj b' hb')
    have := PolyOn.integral_mul (f := fun g => M g p b * M g q b') (h := fun g => g (D i b) * g (D j b'))
      hg hTT hc ((hM.poly p b hp hb).mul (hM.poly q b' hq hb'))
      ((PolyOn.draw (hD i hi b hb)).mul (PolyOn.draw (hD j hj b' hb')))
      (hM.integrable p q b b' hp hq hb hb') h1.1
    have e : (fun ω => M' (g ω) (p ++ [i]) b * M' (g ω) (q ++ [j]) b')
        = fun ω => ((M (g ω) p b * M (g ω) q b') * (g ω (D i b) * g ω (D j b'))) * c ^ 2 := by
      funext ω
      rw [hM' _ _ _ _ hp hi hb, hM' _ _ _ _ hq hj hb']
      ring
    rw [e]
    refine ⟨this.1.mul_const _, ?_⟩
    rw [integral_mul_const, this.2, hM.moment p q b b' hp hq hb hb', h1.2]
    have e2 : (p ++ [i] = q ++ [j] ∧ b = b') ↔ (p = q ∧ b = b') ∧ D i b = D j b' := by
      constructor
      · rintro ⟨h1, h2⟩
        have := List.append_inj h1 (by rw [hp.length, hq.length])
        have hij : i = j := by simpa using this.2
        exact ⟨⟨this.1, h2⟩, by rw [hij, h2]⟩
      · rintro ⟨⟨rfl, rfl⟩, h3⟩
        have := (hinj i hi b hb j hj b hb h3).1
        exact ⟨by rw [this], rfl⟩
    by_cases ha : p = q ∧ b = b' <;> by_cases hb : D i b = D j b'
    · rw [if_pos (e2.2 ⟨ha, hb⟩), if_pos ha, if_pos hb]; ring
    · rw [if_neg fun h => hb (e2.1 h).2, if_neg hb]; ring
    · rw [if_neg fun h => ha (e2.1 h).1, if_neg ha]; ring
    · rw [if_neg fun h => ha (e2.1 h).1, if_neg ha]; ring
  refine ⟨?_, ?_, ?_⟩
  · intro p b hp hb
    obtain ⟨q, i, hq, hi, rfl⟩ := hsplit hp
    exact (((hM.poly q b hq hb).mono subset_union_left).mul
      ((PolyOn.draw (mem_union_right _ (hD i hi b hb))).mul (PolyOn.const c))).congr fun g => hM' g q i b hq hi hb
  · intro p0 q0 b b' hp0 hq0 hb hb'
    obtain ⟨p, i, hp, hi, rfl⟩ := hsplit hp0
    obtain ⟨q, j, hq, hj, rfl⟩ := hsplit hq0
    exact (term p q i j b b' hp hq hi hj hb hb').1
  · intro p0 q0 b b' hp0 hq0 hb hb'
    obtain ⟨p, i, hp, hi, rfl⟩ := hsplit hp0
    obtain ⟨q, j, hq, hj, rfl⟩ := hsplit hq0
    exact (term p q i j b b' hp hq hi hj hb hb').2

/-- The product of the first entries. -/
def cpTo (c : ℕ → ℕ → ℕ → ℝ) : ℕ → List ℕ → ℕ → ℝ
  | 0, _, _ => 1
  | m + 1, p, b => cpTo c m (p.take m) b * c m (p.getD m 0) b

theorem cpProd_cpTo (cs : List (ND ℝ)) (m : ℕ) (hm : m ≤ cs.length) (p : List ℕ) (hp : p.length = m) (b : ℕ) :
    cpProd (cs.take m) p b = cpTo (fun k i b => (cs.getD k (ND.zeros [])).get [i, b]) m p b := by
  induction m generalizing p with
  | zero =>
    have hp' : p = [] := List.length_eq_zero_iff.1 hp
    subst hp'
    simp [cpProd, cpTo]
  | succ m ih =>
    obtain ⟨q, i, hq, rfl⟩ : ∃ q i, q.length = m ∧ p = q ++ [i] := by
      have hl : p.take m ++ p.drop m = p := List.take_append_drop _ _
      obtain ⟨i, hi⟩ : ∃ i, p.drop m = [i] := by
        rw [← List.length_eq_one_iff, List.length_drop]; omega
      exact ⟨p.take m, i, by rw [List.length_take]; omega, by rw [← hi, hl]⟩
    rw [take_succ_getD (by omega) (ND.zeros []), cpProd_append _ _ _ _ _ (by rw [List.length_take]; omega),
      ih (by omega) q hq]
    simp only [cpTo, cpProd, mul_one]
    rw [List.take_left' hq, getD_snoc hq]

theorem cpTo_congr_on {r : ℕ} {sh : List ℕ} {c c' : ℕ → ℕ → ℕ → ℝ} {m : ℕ} (hm : m ≤ sh.length)
    (h : ∀ k < m, ∀ i < sh.getD k 0, ∀ b < r, c k i b = c' k i b) (p : List ℕ)
    (hp : InR (sh.take m) p) (b : ℕ) (hb : b < r) : cpTo c m p b = cpTo c' m p b := by
  induction m generalizing p with
  | zero => rfl
  | succ m ih =>
    simp only [cpTo]
    have h1 : InR (sh.take m) (p.take m) := by
      have := hp.take m
      rwa [List.take_take, min_eq_left (by omega)] at this
    have h2 : p.getD m 0 < sh.getD m 0 := by
      have hlt : m < (sh.take (m + 1)).length := by rw [List.length_take]; omega
      have hl := hp.length
      have := hp.getElem hlt
      rw [getD_eq (by omega), getD_eq (by omega)]
      simpa using this
    rw [ih (by omega) (fun k hk => h k (by omega)) _ h1, h m (by omega) _ h2 b hb]

/-- draws behind the factors of a CP tensor -/
def cpDraws (r : ℕ) (n st : ℕ → ℕ) (m : ℕ) : Finset Draw :=
  (range m).biUnion fun k => (range (n k * r)).image fun pos => Draw.normal (st k) (n k * r) pos

theorem cp_iso (hg : StandardDraws P g) (sh : List ℕ) (r : ℕ) (st : ℕ → ℕ) (c : ℕ → ℝ) (m : ℕ)
    (hm : m ≤ sh.length) (hdis : ∀ i < m, ∀ j < m, st i = st j → i = j) (m1 : 1 ≤ m) :
    IsoOn P g (cpDraws r (fun k => sh.getD k 0) st m) (sh.take m) r (∏ k ∈ range m, c k ^ 2)
      (fun g => cpTo (fun k i b => g (.normal (st k) (sh.getD k 0 * r) (i * r + b)) * c k) m) := by
  have hmem : ∀ k, ∀ i < sh.getD k 0, ∀ b < r, Draw.normal (st k) (sh.getD k 0 * r) (i * r + b)
      ∈ (range (sh.getD k 0 * r)).image fun pos => Draw.normal (st k) (sh.getD k 0 * r) pos := by
    intro k i hi b hb
    simp only [mem_image, mem_range]
    exact ⟨_, pos_lt hi hb, rfl⟩
  have hin : ∀ k, ∀ i < sh.getD k 0, ∀ b < r, ∀ i' < sh.getD k 0, ∀ b' < r,
      Draw.normal (st k) (sh.getD k 0 * r) (i * r + b) = Draw.normal (st k) (sh.getD k 0 * r) (i' * r + b') → i = i' ∧ b = b' := by
    intro k i hi b hb i' hi' b' hb' e
    have e := (Draw.normal.inj e).2.2
    exact ⟨by rw [← mul_add_div (a := i) hb, e, mul_add_div hb'], by rw [← mul_add_mod' (a := i) hb, e, mul_add_mod' hb']⟩
  induction m with
  | zero => omega
  | succ m ih =>
    rcases Nat.eq_zero_or_pos m with rfl | hpos
    · -- the first factor
      obtain ⟨n, sh', rfl⟩ : ∃ n sh', sh = n :: sh' := by
        cases sh with
        | nil => simp at hm
        | cons n s => exact ⟨n, s, rfl⟩
      have hT : Draw.Compatible ((range (n * r)).image fun pos => Draw.normal (st 0) (n * r) pos) := by
        intro s n1 k1 n2 k2 h1 h2
        simp only [mem_image, Draw.normal.injEq] at h1 h2
        obtain ⟨_, _, -, e1, _⟩ := h1
        obtain ⟨_, _, -, e2, _⟩ := h2
        rw [← e1, ← e2]
      have := IsoOn.draws (P := P) (g := g) hg hT (sh := [n]) (r := r)
        (fun p b => Draw.normal (st 0) (n * r) (p.headD 0 * r + b)) (c 0) ?_ ?_
        (fun g => cpTo (fun k i b => g (.normal (st k) ((n :: sh').getD k 0 * r) (i * r + b)) * c k) 1) ?_
      · simpa [cpDraws] using this
      · intro p b hp hb
        match p, hp with
        | [i], hp => exact hmem 0 i hp.1 b hb
      · intro p q a b hp hq ha hb e
        match p, q, hp, hq with
        | [i], [j], hp, hq =>
          obtain ⟨e1, e2⟩ := hin 0 i hp.1 a ha j hq.1 b hb e
          exact ⟨by rw [e1], e2⟩
      · intro g p b hp hb
        match p, hp with
        | [i], hp => simp [cpTo]
    · have ih := ih (by omega) (fun i hi j hj => hdis i (by omega) j (by omega)) hpos
      have hlt : m < sh.length := by omega
      have hsucc : cpDraws r (fun k => sh.getD k 0) st (m + 1) = cpDraws r (fun k => sh.getD k 0) st m ∪
          (range (sh.getD m 0 * r)).image fun pos => Draw.normal (st m) (sh.getD m 0 * r) pos := by
        unfold cpDraws
        rw [range_add_one, biUnion_insert, union_comm]
      have hcomp : Draw.Compatible (cpDraws r (fun k => sh.getD k 0) st (m + 1)) := by
        intro s n1 k1 n2 k2 h1 h2
        simp only [cpDraws, mem_biUnion, mem_range, mem_image, Draw.normal.injEq] at h1 h2
        obtain ⟨i, hi, _, _, e1, e2, _⟩ := h1
        obtain ⟨j, hj, _, _, f1, f2, _⟩ := h2
        have := hdis i hi j hj (e1.trans f1.symm)
        subst this
        rw [← e2, ← f2]
      have hdj : Disjoint (cpDraws r (fun k => sh.getD k 0) st m)
          ((range (sh.getD m 0 * r)).image fun pos => Draw.normal (st m) (sh.getD m 0 * r) pos) := by
        rw [Finset.disjoint_left]
        intro x h1 h2
        simp only [cpDraws, mem_biUnion, mem_range, mem_image] at h1 h2
        obtain ⟨i, hi, _, _, rfl⟩ := h1
        obtain ⟨_, _, e⟩ := h2
        have := hdis m (by omega) i (by omega) (Draw.normal.inj e).1
        omega
      rw [hsucc] at hcomp ⊢
      rw [take_succ_getD hlt 0, prod_range_succ]
      refine ih.stepCP hg hdj hcomp (fun i b => .normal (st m) (sh.getD m 0 * r) (i * r + b)) (hmem m) (hin m) _ ?_
      intro g p i b hp hi hb
      have hlen : p.length = m := by rw [hp.length, List.length_take]; omega
      simp only [cpTo]
      rw [List.take_left' hlen, getD_snoc hlen]

end TTS
