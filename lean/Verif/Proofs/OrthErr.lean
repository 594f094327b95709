import Verif.Proofs.Orth
import Verif.Proofs.OrthTT
import Verif.Proofs.Round

/-! Error of the methods `orthogonal` and `hmt`: left-orthogonal cores project. -/

namespace TTS

open Finset

section
variable {K : Type*} [CommRing K]

/-- The left contraction with one more core. -/
theorem pcL_succ {sh : List ℕ} {f : List ℕ → K} {cs : List (ND K)} {rk n : ℕ → ℕ} (h : Cores cs rk n)
    (h0 : rk 0 = 1) {mu : ℕ} (hmu : mu < cs.length) (hsh : mu < sh.length) (hn : n mu = sh.getD mu 0)
    (t : ℕ) (q : List ℕ) :
    pcL sh f (coreMats cs) (mu + 1) t q
      = ∑ a ∈ range (rk mu), ∑ j ∈ range (n mu), (cs.getD mu (ND.zeros [])).get [a, j, t]
          * pcL sh f (coreMats cs) mu a (j :: q) := by
  unfold pcL
  rw [sumIdx_take_succ hsh, hn]
  have : ∀ p, InR (sh.take mu) p → ∑ j ∈ range (sh.getD mu 0), coreMats cs (mu + 1) (p ++ [j]) t * f (p ++ [j] ++ q)
      = ∑ a ∈ range (rk mu), ∑ j ∈ range (sh.getD mu 0), (cs.getD mu (ND.zeros [])).get [a, j, t]
        * (coreMats cs mu p a * f (p ++ j :: q)) := by
    intro p hp
    rw [sum_comm]
    refine sum_congr rfl fun j _ => ?_
    rw [coreMats_succ h h0 hmu (by rw [hp.length, List.length_take]; omega), sum_mul, List.append_assoc]
    exact sum_congr rfl fun a _ => by simp only [List.singleton_append]; ring
  rw [sumIdx_congr this, sumIdx_sum]
  refine sum_congr rfl fun a _ => ?_
  rw [sumIdx_sum]
  exact sum_congr rfl fun j _ => (mul_sumIdx _ _ _).symm

/-- The left contraction is linear. -/
theorem pcL_sub (sh : List ℕ) (f g : List ℕ → K) (L : Mats K) (k a : ℕ) (q : List ℕ) :
    pcL sh (fun i => f i - g i) L k a q = pcL sh f L k a q - pcL sh g L k a q := by
  unfold pcL
  have : ∀ p, L k p a * (f (p ++ q) - g (p ++ q)) = L k p a * f (p ++ q) + (-1) * (L k p a * g (p ++ q)) := by
    intro p; ring
  simp only [this]
  rw [sumIdx_add, ← mul_sumIdx]; ring

end

/-- Projection with orthonormal columns `Q` (`m` rows, indexed by a finite set, `k` columns): the part of a vector
that is projected away. -/
theorem bessel_eq {ι : Type*} (S : Finset ι) (Q : ι → ℕ → ℝ) (k : ℕ)
    (hQ : ∀ s < k, ∀ t < k, ∑ i ∈ S, Q i s * Q i t = if s = t then 1 else 0) (v : ι → ℝ) (y : ℕ → ℝ) :
    ∑ i ∈ S, (v i - ∑ t ∈ range k, Q i t * y t) ^ 2
      = ∑ i ∈ S, v i ^ 2 - ∑ t ∈ range k, (∑ i ∈ S, Q i t * v i) ^ 2
        + ∑ t ∈ range k, (∑ i ∈ S, Q i t * v i - y t) ^ 2 := by
  have e1 : ∀ i, (v i - ∑ t ∈ range k, Q i t * y t) ^ 2
      = v i ^ 2 - 2 * (∑ t ∈ range k, y t * (Q i t * v i)) + ∑ s ∈ range k, ∑ t ∈ range k, y s * y t * (Q i s * Q i t) := by
    intro i
    have a1 : ∑ t ∈ range k, y t * (Q i t * v i) = (∑ t ∈ range k, Q i t * y t) * v i := by
      rw [sum_mul]; exact sum_congr rfl fun t _ => by ring
    have a2 : ∑ s ∈ range k, ∑ t ∈ range k, y s * y t * (Q i s * Q i t) = (∑ t ∈ range k, Q i t * y t) ^ 2 := by
      rw [sq, sum_mul_sum]
      exact sum_congr rfl fun s _ => sum_congr rfl fun t _ => by ring
    rw [a1, a2]; ring
  simp only [e1]
  rw [sum_add_distrib, sum_sub_distrib, ← mul_sum, sum_comm (s := S) (t := range k)]
  have e2 : ∑ i ∈ S, ∑ s ∈ range k, ∑ t ∈ range k, y s * y t * (Q i s * Q i t) = ∑ s ∈ range k, y s ^ 2 := by
    rw [sum_comm]
    refine sum_congr rfl fun s hs => ?_
    rw [sum_comm]
    have : ∀ t ∈ range k, ∑ i ∈ S, y s * y t * (Q i s * Q i t) = if s = t then y s * y t else 0 := by
      intro t ht
      rw [← mul_sum, hQ s (by simpa using hs) t (by simpa using ht)]
      split_ifs <;> simp
    rw [sum_congr rfl this, sum_ite_eq, if_pos hs]; ring
  rw [e2]
  have e3 : ∀ t, ∑ i ∈ S, y t * (Q i t * v i) = y t * ∑ i ∈ S, Q i t * v i := fun t => (mul_sum _ _ _).symm
  simp only [e3]
  rw [← sub_eq_zero]
  have e4 : ∑ t ∈ range k, (∑ i ∈ S, Q i t * v i - y t) ^ 2
      = ∑ t ∈ range k, (∑ i ∈ S, Q i t * v i) ^ 2 - 2 * ∑ t ∈ range k, y t * (∑ i ∈ S, Q i t * v i)
        + ∑ t ∈ range k, y t ^ 2 := by
    rw [mul_sum, ← sum_sub_distrib, ← sum_add_distrib]
    exact sum_congr rfl fun t _ => by ring
  rw [e4]; ring

/-- Sum of squares of the left contraction over the first `k` modes. -/
noncomputable def pcNorm (sh : List ℕ) (f : List ℕ → ℝ) (L : Mats ℝ) (k r : ℕ) : ℝ :=
  ∑ a ∈ range r, sumIdx (sh.drop k) fun q => pcL sh f L k a q ^ 2

theorem sumIdx_nonneg {s : List ℕ} {f : List ℕ → ℝ} (h : ∀ i, 0 ≤ f i) : 0 ≤ sumIdx s f := by
  rw [sumIdx_eq_sum]; exact sum_nonneg fun i _ => h i

theorem sumIdx_sub (s : List ℕ) (f g : List ℕ → ℝ) :
    sumIdx s (fun i => f i - g i) = sumIdx s f - sumIdx s g := by
  rw [sumIdx_eq_sum, sumIdx_eq_sum, sumIdx_eq_sum, sum_sub_distrib]

theorem sumIdx_drop_succ {sh : List ℕ} {mu : ℕ} (h : mu < sh.length) (f : List ℕ → ℝ) :
    sumIdx (sh.drop mu) f = ∑ j ∈ range (sh.getD mu 0), sumIdx (sh.drop (mu + 1)) fun q => f (j :: q) := by
  rw [List.drop_eq_getElem_cons h, sumIdx_cons, getD_eq h]

/-- One step: the open contraction splits into the part in the range of the core and the rest, for every `y`. -/
theorem step_error {sh : List ℕ} {f : List ℕ → ℝ} {cs : List (ND ℝ)} {rk n : ℕ → ℕ} (h : Cores cs rk n)
    (h0 : rk 0 = 1) {mu : ℕ} (hmu : mu < cs.length) (hsh : mu < sh.length) (hn : n mu = sh.getD mu 0)
    (ho : (cs.getD mu (ND.zeros [])).LeftOrthogonal) (y : ℕ → List ℕ → ℝ) :
    pcNorm sh f (coreMats cs) mu (rk mu) ≤ pcNorm sh f (coreMats cs) (mu + 1) (rk (mu + 1))
      + (∑ a ∈ range (rk mu), ∑ j ∈ range (n mu), sumIdx (sh.drop (mu + 1)) fun q =>
        (pcL sh f (coreMats cs) mu a (j :: q)
          - ∑ t ∈ range (rk (mu + 1)), (cs.getD mu (ND.zeros [])).get [a, j, t] * y t q) ^ 2)
    ∧ pcNorm sh f (coreMats cs) (mu + 1) (rk (mu + 1)) ≤ pcNorm sh f (coreMats cs) mu (rk mu) := by
  set C := cs.getD mu (ND.zeros []) with hCdef
  obtain ⟨d0, d1, d2⟩ := dim_of_shape3 (h mu hmu)
  have hO : ∀ s < rk (mu + 1), ∀ t < rk (mu + 1), ∑ i ∈ range (rk mu) ×ˢ range (n mu), C.get [i.1, i.2, s] * C.get [i.1, i.2, t]
      = if s = t then 1 else 0 := by
    intro s hs t ht
    have := ho s (by rw [d2]; exact hs) t (by rw [d2]; exact ht)
    rw [d0, d1] at this
    rw [sum_product]; exact this
  have key : ∀ (z : ℕ → ℝ) q, ∑ i ∈ range (rk mu) ×ˢ range (n mu),
        (pcL sh f (coreMats cs) mu i.1 (i.2 :: q) - ∑ t ∈ range (rk (mu + 1)), C.get [i.1, i.2, t] * z t) ^ 2
      = ∑ i ∈ range (rk mu) ×ˢ range (n mu), pcL sh f (coreMats cs) mu i.1 (i.2 :: q) ^ 2
        - ∑ t ∈ range (rk (mu + 1)), pcL sh f (coreMats cs) (mu + 1) t q ^ 2
        + ∑ t ∈ range (rk (mu + 1)), (pcL sh f (coreMats cs) (mu + 1) t q - z t) ^ 2 := by
    intro z q
    have k := bessel_eq (range (rk mu) ×ˢ range (n mu)) (fun (i : ℕ × ℕ) t => C.get [i.1, i.2, t]) _ hO
      (fun i => pcL sh f (coreMats cs) mu i.1 (i.2 :: q)) z
    have e : ∀ t, ∑ i ∈ range (rk mu) ×ˢ range (n mu), C.get [i.1, i.2, t] * pcL sh f (coreMats cs) mu i.1 (i.2 :: q)
        = pcL sh f (coreMats cs) (mu + 1) t q := by
      intro t
      rw [sum_product, pcL_succ h h0 hmu hsh hn]
    simp only [e] at k
    exact k
  have n0 : pcNorm sh f (coreMats cs) mu (rk mu)
      = sumIdx (sh.drop (mu + 1)) fun q => ∑ i ∈ range (rk mu) ×ˢ range (n mu), pcL sh f (coreMats cs) mu i.1 (i.2 :: q) ^ 2 := by
    rw [sumIdx_sum, sum_product, pcNorm]
    refine sum_congr rfl fun a _ => ?_
    rw [sumIdx_drop_succ hsh, hn]
  have n1 : pcNorm sh f (coreMats cs) (mu + 1) (rk (mu + 1))
      = sumIdx (sh.drop (mu + 1)) fun q => ∑ t ∈ range (rk (mu + 1)), pcL sh f (coreMats cs) (mu + 1) t q ^ 2 := by
    rw [sumIdx_sum, pcNorm]
  have n2 : ∑ a ∈ range (rk mu), ∑ j ∈ range (n mu), sumIdx (sh.drop (mu + 1)) (fun q =>
        (pcL sh f (coreMats cs) mu a (j :: q) - ∑ t ∈ range (rk (mu + 1)), C.get [a, j, t] * y t q) ^ 2)
      = sumIdx (sh.drop (mu + 1)) fun q => ∑ i ∈ range (rk mu) ×ˢ range (n mu),
        (pcL sh f (coreMats cs) mu i.1 (i.2 :: q) - ∑ t ∈ range (rk (mu + 1)), C.get [i.1, i.2, t] * y t q) ^ 2 := by
    rw [sumIdx_sum, sum_product]
  rw [n2, n0, n1, ← sumIdx_add, sumIdx_eq_sum, sumIdx_eq_sum, sumIdx_eq_sum]
  constructor
  · refine sum_le_sum fun q _ => ?_
    have k := key (fun t => y t q) q
    have p : 0 ≤ ∑ t ∈ range (rk (mu + 1)), (pcL sh f (coreMats cs) (mu + 1) t q - y t q) ^ 2 :=
      sum_nonneg fun t _ => sq_nonneg _
    beta_reduce at k
    linarith
  · refine sum_le_sum fun q _ => ?_
    have k := key (fun t => pcL sh f (coreMats cs) (mu + 1) t q) q
    have p : 0 ≤ ∑ i ∈ range (rk mu) ×ˢ range (n mu), (pcL sh f (coreMats cs) mu i.1 (i.2 :: q)
      - ∑ t ∈ range (rk (mu + 1)), C.get [i.1, i.2, t] * pcL sh f (coreMats cs) (mu + 1) t q) ^ 2 :=
      sum_nonneg fun i _ => sq_nonneg _
    rw [k] at p
    simp only [sub_self, ne_eq, OfNat.ofNat_ne_zero, not_false_eq_true, zero_pow, sum_const_zero, add_zero] at p
    linarith

theorem pcNorm_zero (sh : List ℕ) (f : List ℕ → ℝ) (cs : List (ND ℝ)) :
    pcNorm sh f (coreMats cs) 0 1 = sumIdx sh fun i => f i ^ 2 := by
  simp [pcNorm, pcL, coreMats]

/-- Contraction with left-orthogonal cores does not increase the norm. -/
theorem pcNorm_le {sh : List ℕ} {f : List ℕ → ℝ} {cs : List (ND ℝ)} {rk n : ℕ → ℕ} (h : Cores cs rk n)
    (h0 : rk 0 = 1) (hn : ∀ mu, n mu = sh.getD mu 0) :
    ∀ mu ≤ cs.length, mu ≤ sh.length → (∀ k < mu, (cs.getD k (ND.zeros [])).LeftOrthogonal) →
      pcNorm sh f (coreMats cs) mu (rk mu) ≤ sumIdx sh fun i => f i ^ 2
  | 0, _, _, _ => by rw [h0, pcNorm_zero]
  | mu + 1, h1, h2, ho =>
    (step_error h h0 (by omega) (by omega) (hn mu) (ho mu (by omega)) (fun _ _ => 0)).2.trans
      (pcNorm_le h h0 hn mu (by omega) (by omega) fun k hk => ho k (by omega))

/-! ### the result as a projection -/

/-- An array sum over all modes, the last one separate. -/
theorem sumIdx_snoc {sh : List ℕ} (hd : 1 ≤ sh.length) (g : List ℕ → ℝ) :
    sumIdx sh g = sumIdx (sh.take (sh.length - 1)) fun p => ∑ j ∈ range (sh.getD (sh.length - 1) 0), g (p ++ [j]) := by
  have := sumIdx_take_succ (sh := sh) (mu := sh.length - 1) (by omega) g
  rwa [Nat.sub_add_cancel hd, List.take_length] at this

/-- Inner product with a tensor train that shares all cores but the last. -/
theorem inner_frame {sh : List ℕ} {f : List ℕ → ℝ} (L : Mats ℝ) {r : ℕ} (hd : 1 ≤ sh.length) {g : List ℕ → ℝ}
    {z : ℕ → ℕ → ℝ} (hg : ∀ p, InR (sh.take (sh.length - 1)) p → ∀ j, g (p ++ [j])
      = ∑ a ∈ range r, L (sh.length - 1) p a * z a j) :
    sumIdx sh (fun i => f i * g i)
      = ∑ a ∈ range r, ∑ j ∈ range (sh.getD (sh.length - 1) 0), pcL sh f L (sh.length - 1) a [j] * z a j := by
  rw [sumIdx_snoc hd]
  have e : ∀ p, InR (sh.take (sh.length - 1)) p →
      ∑ j ∈ range (sh.getD (sh.length - 1) 0), f (p ++ [j]) * g (p ++ [j])
      = ∑ a ∈ range r, ∑ j ∈ range (sh.getD (sh.length - 1) 0), (L (sh.length - 1) p a * f (p ++ [j])) * z a j := by
    intro p hp
    rw [sum_comm]
    refine sum_congr rfl fun j _ => ?_
    rw [hg p hp, mul_sum]
    exact sum_congr rfl fun a _ => by ring
  rw [sumIdx_congr e, sumIdx_sum]
  refine sum_congr rfl fun a _ => ?_
  rw [sumIdx_sum]
  refine sum_congr rfl fun j _ => ?_
  rw [← sumIdx_mul]
  rfl

/-- Contracting a tensor train whose cores but the last are left-orthogonal with those cores gives its last core. -/
theorem pcL_frame {sh : List ℕ} {cs : List (ND ℝ)} {rk n : ℕ → ℕ} (h : Cores cs rk n) (h0 : rk 0 = 1)
    (hn : ∀ mu, n mu = sh.getD mu 0) (hl : sh.length - 1 ≤ cs.length)
    (ho : ∀ k < sh.length - 1, (cs.getD k (ND.zeros [])).LeftOrthogonal) {g : List ℕ → ℝ} {z : ℕ → ℕ → ℝ}
    (hg : ∀ p, InR (sh.take (sh.length - 1)) p → ∀ j, g (p ++ [j])
      = ∑ a ∈ range (rk (sh.length - 1)), coreMats cs (sh.length - 1) p a * z a j)
    (a : ℕ) (ha : a < rk (sh.length - 1)) (j : ℕ) :
    pcL sh g (coreMats cs) (sh.length - 1) a [j] = z a j := by
  unfold pcL
  have e : ∀ p, InR (sh.take (sh.length - 1)) p → coreMats cs (sh.length - 1) p a * g (p ++ [j])
      = (∑ x ∈ range (rk (sh.length - 1)), coreMats cs (sh.length - 1) p x * (if x = a then 1 else 0))
        * ∑ y ∈ range (rk (sh.length - 1)), coreMats cs (sh.length - 1) p y * z y j := by
    intro p hp
    rw [hg p hp]
    congr 1
    simp [ha]
  rw [sumIdx_congr e]
  by_cases h1 : sh.length - 1 = 0
  · have ha' : a = 0 := by rw [h1, h0] at ha; omega
    subst ha'
    rw [h1, h0]
    simp [coreMats]
  · have hs : sh.take (sh.length - 1) = coreShape (cs.take (sh.length - 1)) := by
      rw [h.coreShape _ hl]
      refine List.ext_getElem (by simp) fun i h1 h2 => ?_
      simp only [List.length_take] at h1
      simp only [List.getElem_take, List.getElem_map, List.getElem_range, hn]
      rw [getD_eq (by omega)]
    have hc := h.chain _ hl
    rw [h0] at hc
    have e2 : ∀ p x, coreMats cs (sh.length - 1) p x = ttVal (cs.take (sh.length - 1)) p 0 x := by
      intro p x; unfold coreMats; rw [if_neg h1]
    simp only [e2]
    rw [hs, ttVal_isometry hc ?_ (fun x => if x = a then 1 else 0) (fun y => z y j)]
    · simp [ha]
    · intro C hC
      obtain ⟨i, hi, rfl⟩ := List.mem_iff_getElem.1 hC
      simp only [List.length_take] at hi
      have := ho i (by omega)
      rw [getD_eq (by omega)] at this
      simpa using this

/-- Entries of a tensor train that shares all cores but the last. -/
theorem frame_entry {sh : List ℕ} {cs : List (ND ℝ)} {rk n : ℕ → ℕ} (h : Cores cs rk n) (h0 : rk 0 = 1)
    (hd : 1 ≤ sh.length) (hl : cs.length = sh.length) {Z : TT ℝ} (hZ : Z.Valid)
    (hdl : Z.cores.dropLast = cs.dropLast) : ∃ C : ND ℝ, (Z.cores.getLast? = some C) ∧
      ∀ p, InR (sh.take (sh.length - 1)) p → ∀ j, ttEntry Z (p ++ [j])
        = ∑ a ∈ range (rk (sh.length - 1)), coreMats cs (sh.length - 1) p a * C.get [a, j, 0] := by
  obtain ⟨hne, hc⟩ := hZ
  have hZc := List.dropLast_append_getLast hne
  rw [hdl, List.dropLast_eq_take, hl] at hZc
  have hlast := List.getLast?_eq_some_getLast hne
  generalize Z.cores.getLast hne = C at hZc hlast
  refine ⟨C, hlast, fun p hp j => ?_⟩
  have hpl : p.length = sh.length - 1 := by rw [hp.length, List.length_take]; omega
  rw [← hZc] at hc
  obtain ⟨s, c1, c2⟩ := hc.split
  obtain ⟨m, t, c3, -⟩ := c2
  have hs : s = rk (sh.length - 1) := by
    have := h.chain (sh.length - 1) (by omega)
    rw [h0] at this
    by_cases h1 : sh.length - 1 = 0
    · rw [h1] at c1 ⊢
      have : 1 = s := c1
      rw [h0]; exact this.symm
    · exact TTChain.unique (by
        intro e
        have := congrArg List.length e
        simp only [List.length_take, List.length_nil] at this
        omega) c1 this
  subst hs
  rw [ttEntry, ← hZc, ttVal_concat c1 c3 p (by rw [List.length_take]; omega) j 0 0 Nat.one_pos]
  refine sum_congr rfl fun a ha => ?_
  congr 1
  unfold coreMats
  split_ifs with h1
  · have : p = [] := List.length_eq_zero_iff.1 (by omega)
    subst this
    rw [h1] at ha ⊢
    have : a = 0 := by rw [h0] at ha; simpa using ha
    subst this
    rfl
  · rfl

/-- Projection onto the tensor trains that share all cores but the last. -/
theorem frame_inner {sh : List ℕ} {f : List ℕ → ℝ} {cs : List (ND ℝ)} {rk n : ℕ → ℕ} (h : Cores cs rk n)
    (h0 : rk 0 = 1) (h1 : rk sh.length = 1) (hn : ∀ mu, n mu = sh.getD mu 0) (hd : 1 ≤ sh.length)
    (hl : cs.length = sh.length) (ho : ∀ k < sh.length - 1, (cs.getD k (ND.zeros [])).LeftOrthogonal)
    (hlast : ∀ a < rk (sh.length - 1), ∀ j < sh.getD (sh.length - 1) 0,
      (cs.getD (sh.length - 1) (ND.zeros [])).get [a, j, 0] = pcL sh f (coreMats cs) (sh.length - 1) a [j])
    {Z : TT ℝ} (hZ : Z.Valid) (hdl : Z.cores.dropLast = cs.dropLast) :
    sumIdx sh (fun i => f i * ttEntry Z i) = sumIdx sh fun i => ttEntry (TT.mk cs) i * ttEntry Z i := by
  obtain ⟨C, -, hC⟩ := frame_entry h h0 hd hl hZ hdl
  have hv : (TT.mk cs).Valid := h.valid h0 (by omega) (by rw [hl, h1])
  obtain ⟨D, hD', hD⟩ := frame_entry (Z := TT.mk cs) h h0 hd hl hv rfl
  have hDe : D = cs.getD (sh.length - 1) (ND.zeros []) := by
    have hD' : cs.getLast? = some D := hD'
    rw [List.getLast?_eq_getElem?, hl] at hD'
    rw [List.getD_eq_getElem?_getD, hD']; rfl
  rw [inner_frame (coreMats cs) hd hC, inner_frame (f := ttEntry (TT.mk cs)) (coreMats cs) hd hC]
  refine sum_congr rfl fun a ha => sum_congr rfl fun j hj => ?_
  rw [pcL_frame h h0 hn (by omega) ho hD a (by simpa using ha) j, hDe,
    hlast a (by simpa using ha) j (by simpa using hj)]

/-- Pythagoras for the projection. -/
theorem frame_pythagoras {sh : List ℕ} {f g y : List ℕ → ℝ}
    (h1 : sumIdx sh (fun i => f i * g i) = sumIdx sh fun i => y i * g i)
    (h2 : sumIdx sh (fun i => f i * y i) = sumIdx sh fun i => y i * y i) :
    sumIdx sh (fun i => (f i - g i) ^ 2)
      = sumIdx sh (fun i => (f i - y i) ^ 2) + sumIdx sh (fun i => (y i - g i) ^ 2) := by
  simp only [sumIdx_eq_sum] at *
  rw [← sum_add_distrib, ← sub_eq_zero, ← sum_sub_distrib]
  have e : ∀ i, (f i - g i) ^ 2 - ((f i - y i) ^ 2 + (y i - g i) ^ 2)
      = 2 * (f i * y i - y i * y i) - 2 * (f i * g i - y i * g i) := by intro i; ring
  simp only [e]
  rw [sum_sub_distrib, ← mul_sum, ← mul_sum, sum_sub_distrib, sum_sub_distrib, h1, h2]
  ring

/-- The norm of the result is the norm of the last open contraction. -/
theorem frame_norm {sh : List ℕ} {f : List ℕ → ℝ} {cs : List (ND ℝ)} {rk n : ℕ → ℕ} (h : Cores cs rk n)
    (h0 : rk 0 = 1) (h1 : rk sh.length = 1) (hn : ∀ mu, n mu = sh.getD mu 0) (hd : 1 ≤ sh.length)
    (hl : cs.length = sh.length) (ho : ∀ k < sh.length - 1, (cs.getD k (ND.zeros [])).LeftOrthogonal)
    (hlast : ∀ a < rk (sh.length - 1), ∀ j < sh.getD (sh.length - 1) 0,
      (cs.getD (sh.length - 1) (ND.zeros [])).get [a, j, 0] = pcL sh f (coreMats cs) (sh.length - 1) a [j]) :
    sumIdx sh (fun i => ttEntry (TT.mk cs) i ^ 2) = pcNorm sh f (coreMats cs) (sh.length - 1) (rk (sh.length - 1)) := by
  have hv : (TT.mk cs).Valid := h.valid h0 (by omega) (by rw [hl, h1])
  obtain ⟨D, hD', hD⟩ := frame_entry (Z := TT.mk cs) h h0 hd hl hv rfl
  have hDe : D = cs.getD (sh.length - 1) (ND.zeros []) := by
    have hD' : cs.getLast? = some D := hD'
    rw [List.getLast?_eq_getElem?, hl] at hD'
    rw [List.getD_eq_getElem?_getD, hD']; rfl
  simp only [sq]
  rw [inner_frame (f := ttEntry (TT.mk cs)) (coreMats cs) hd hD, pcNorm]
  refine sum_congr rfl fun a ha => ?_
  rw [sumIdx_drop_succ (by omega), Nat.sub_add_cancel hd, List.drop_length]
  refine sum_congr rfl fun j hj => ?_
  rw [pcL_frame h h0 hn (by omega) ho hD a (by simpa using ha) j, hDe,
    hlast a (by simpa using ha) j (by simpa using hj), sumIdx_nil, sq]

/-- Telescoping. -/
theorem frame_error {sh : List ℕ} {f : List ℕ → ℝ} {cs : List (ND ℝ)} {rk n : ℕ → ℕ} (h : Cores cs rk n)
    (h0 : rk 0 = 1) (hn : ∀ mu, n mu = sh.getD mu 0) (e : ℕ → ℝ) :
    ∀ d, d ≤ cs.length → d ≤ sh.length → (∀ k < d, (cs.getD k (ND.zeros [])).LeftOrthogonal) →
    (∀ mu < d, ∃ y : ℕ → List ℕ → ℝ, (∑ a ∈ range (rk mu), ∑ j ∈ range (n mu), sumIdx (sh.drop (mu + 1)) fun q =>
        (pcL sh f (coreMats cs) mu a (j :: q)
          - ∑ t ∈ range (rk (mu + 1)), (cs.getD mu (ND.zeros [])).get [a, j, t] * y t q) ^ 2) ≤ e mu) →
    sumIdx sh (fun i => f i ^ 2) - pcNorm sh f (coreMats cs) d (rk d) ≤ ∑ mu ∈ range d, e mu
  | 0, _, _, _, _ => by rw [h0, pcNorm_zero]; simp
  | d + 1, h1, h2, ho, hy => by
    rw [sum_range_succ]
    have ih := frame_error h h0 hn e d (by omega) (by omega) (fun k hk => ho k (by omega)) fun k hk => hy k (by omega)
    obtain ⟨y, hy⟩ := hy d (by omega)
    have := (step_error (f := f) h h0 (by omega : d < cs.length) (by omega) (hn d) (ho d (by omega)) y).1
    linarith

/-- The defect of one open contraction is at most the defect of the whole array. -/
theorem defect_le {sh : List ℕ} {f : List ℕ → ℝ} {cs : List (ND ℝ)} {rk n : ℕ → ℕ} (h : Cores cs rk n)
    (h0 : rk 0 = 1) (hn : ∀ mu, n mu = sh.getD mu 0) {mu : ℕ} (hmu : mu < sh.length) (hl : cs.length = sh.length)
    (ho : ∀ k < mu, (cs.getD k (ND.zeros [])).LeftOrthogonal) (R : Mats ℝ) (r : ℕ) (U : ℕ → List ℕ → ℝ)
    (y : ℕ → List ℕ → ℝ)
    (hy : ∀ a < rk mu, ∀ j < n mu, ∀ q, InR (sh.drop (mu + 1)) q →
      ∑ t ∈ range (rk (mu + 1)), (cs.getD mu (ND.zeros [])).get [a, j, t] * y t q
        = ∑ b ∈ range r, psiSpec sh f (coreMats cs) R mu a j b * U b q) :
    (∑ a ∈ range (rk mu), ∑ j ∈ range (n mu), sumIdx (sh.drop (mu + 1)) fun q =>
        (pcL sh f (coreMats cs) mu a (j :: q)
          - ∑ t ∈ range (rk (mu + 1)), (cs.getD mu (ND.zeros [])).get [a, j, t] * y t q) ^ 2)
      ≤ sumIdx sh fun i => (f i - ∑ b ∈ range r,
          pcR sh f R (mu + 1) (i.take (mu + 1)) b * U b (i.drop (mu + 1))) ^ 2 := by
  set g : List ℕ → ℝ := fun i => f i - ∑ b ∈ range r, pcR sh f R (mu + 1) (i.take (mu + 1)) b * U b (i.drop (mu + 1))
  have key := pcNorm_le (f := g) h h0 hn mu (by omega) hmu.le ho
  refine le_trans (le_of_eq ?_) key
  rw [pcNorm]
  refine sum_congr rfl fun a ha => ?_
  rw [sumIdx_drop_succ hmu, hn mu]
  refine sum_congr rfl fun j hj => sumIdx_congr fun q hq => ?_
  congr 1
  rw [pcL_sub]
  congr 1
  rw [hy a (by simpa using ha) j (by rw [hn]; simpa using hj) q hq]
  unfold pcL
  have e : ∀ p, InR (sh.take mu) p → coreMats cs mu p a * ∑ b ∈ range r,
        pcR sh f R (mu + 1) ((p ++ j :: q).take (mu + 1)) b * U b ((p ++ j :: q).drop (mu + 1))
      = ∑ b ∈ range r, coreMats cs mu p a * pcR sh f R (mu + 1) (p ++ [j]) b * U b q := by
    intro p hp
    have hpl : p.length = mu := by rw [hp.length, List.length_take]; omega
    have e1 : (p ++ j :: q).take (mu + 1) = p ++ [j] := by
      rw [show p ++ j :: q = (p ++ [j]) ++ q by simp, List.take_left' (by simp [hpl])]
    have e2 : (p ++ j :: q).drop (mu + 1) = q := by
      rw [show p ++ j :: q = (p ++ [j]) ++ q by simp, List.drop_left' (by simp [hpl])]
    rw [e1, e2, mul_sum]
    exact sum_congr rfl fun b _ => by ring
  rw [sumIdx_congr e, sumIdx_sum]
  refine sum_congr rfl fun b _ => ?_
  rw [psiSpec_right, sumIdx_mul]

end TTS
