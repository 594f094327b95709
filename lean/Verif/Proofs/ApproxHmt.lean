import Verif.Proofs.ApproxRound
import Verif.Props.OrthErr
import Verif.Spec.ApproxHmt

/-! The method `hmt` with inexact QR factorisations. -/

namespace TTS

open Finset TTS.Props

/-- A core contracted with the first two indices of an open contraction. -/
noncomputable def cont (C : ND ℝ) (a n : ℕ) (F : ℕ → List ℕ → ℝ) (t : ℕ) (q : List ℕ) : ℝ :=
  ∑ x ∈ range a, ∑ j ∈ range n, C.get [x, j, t] * F x (j :: q)

theorem cont_diff {C C' : ND ℝ} {a n k : ℕ} (hC : C.shape = [a, n, k]) (rest : List ℕ) (F : ℕ → List ℕ → ℝ) :
    dL k rest (cont C a n F) (cont C' a n F) ≤ frobD C C' * dL a (n :: rest) F zL := by
  refine (Real.sqrt_le_left (mul_nonneg (frobD_nonneg _ _) (dL_nonneg _ _ _ _))).2 ?_
  rw [mul_pow, dL_sq, frob3 hC, distL_swap, distL_step, mul_sum]
  refine sum_le_sum fun q _ => ?_
  have e : ∑ x ∈ range a, ∑ j ∈ range n, ∑ t ∈ range k, (C.get [x, j, t] - C'.get [x, j, t]) ^ 2
      = ∑ t ∈ range k, ∑ z ∈ range a ×ˢ range n, (C.get [z.1, z.2, t] - C'.get [z.1, z.2, t]) ^ 2 := by
    rw [sum_comm (s := range k), sum_product]
  rw [e, sum_mul]
  refine sum_le_sum fun t _ => ?_
  have e1 : cont C a n F t q - cont C' a n F t q
      = ∑ z ∈ range a ×ˢ range n, (C.get [z.1, z.2, t] - C'.get [z.1, z.2, t]) * F z.1 (z.2 :: q) := by
    unfold cont
    rw [sum_product, ← sum_sub_distrib]
    refine sum_congr rfl fun x _ => ?_
    rw [← sum_sub_distrib]
    exact sum_congr rfl fun j _ => (sub_mul _ _ _).symm
  have e2 : ∑ x ∈ range a, ∑ j ∈ range n, (F x (j :: q) - zL x (j :: q)) ^ 2
      = ∑ z ∈ range a ×ˢ range n, F z.1 (z.2 :: q) ^ 2 := by
    rw [sum_product]; simp only [zL, sub_zero]
  rw [e1, e2]
  exact sum_mul_sq_le_sq_mul_sq _ _ _

theorem cont_contract {C : ND ℝ} {a n k : ℕ} (hC : C.shape = [a, n, k]) (ho : C.LeftOrthogonal) (rest : List ℕ)
    (F G : ℕ → List ℕ → ℝ) : dL k rest (cont C a n F) (cont C a n G) ≤ dL a (n :: rest) F G := by
  refine Real.sqrt_le_sqrt ?_
  rw [distL_swap, distL_step]
  refine sum_le_sum fun q _ => ?_
  obtain ⟨d0, d1, d2⟩ := dim_of_shape3 hC
  have hg : Orthn (range a ×ˢ range n) k fun t j => C.get [j.1, j.2, t] := by
    intro s hs t ht
    have := ho s (by rw [d2]; exact hs) t (by rw [d2]; exact ht)
    rw [d0, d1] at this
    rw [sum_product]; exact this
  have := hg.bessel fun z => F z.1 (z.2 :: q) - G z.1 (z.2 :: q)
  rw [sum_product] at this
  refine le_trans (le_of_eq (sum_congr rfl fun t _ => ?_)) this
  congr 1
  unfold cont
  rw [sum_product, ← sum_sub_distrib]
  refine sum_congr rfl fun x _ => ?_
  rw [← sum_sub_distrib]
  exact sum_congr rfl fun j _ => by ring

theorem cont_zero (C : ND ℝ) (a n : ℕ) : cont C a n zL = zL := by
  funext t q
  simp [cont, zL]

section
variable {sh : List ℕ} {f : List ℕ → ℝ} {cs cs' : List (ND ℝ)} {rk n : ℕ → ℕ}

theorem pcL_cont (h : Cores cs rk n) (h0 : rk 0 = 1) {mu : ℕ} (hmu : mu < cs.length) (hsh : mu < sh.length)
    (hn : n mu = sh.getD mu 0) :
    pcL sh f (coreMats cs) (mu + 1) = cont (cs.getD mu (ND.zeros [])) (rk mu) (n mu) (pcL sh f (coreMats cs) mu) := by
  funext t q
  exact pcL_succ h h0 hmu hsh hn t q

theorem drop_cons {mu : ℕ} (h : mu < sh.length) : sh.drop mu = sh.getD mu 0 :: sh.drop (mu + 1) := by
  rw [List.drop_eq_getElem_cons h, getD_eq h]

/-- Contraction with cores near left-orthogonal ones. -/
theorem pcL_near {ε : ℝ} (hε : 0 ≤ ε) (h : Cores cs rk n) (h' : Cores cs' rk n) (h0 : rk 0 = 1) :
    ∀ mu ≤ cs.length, mu ≤ cs'.length → mu ≤ sh.length → (∀ k < mu, n k = sh.getD k 0) →
      (∀ k < mu, Partner ε (cs.getD k (ND.zeros [])) (cs'.getD k (ND.zeros []))) →
      dL (rk mu) (sh.drop mu) (pcL sh f (coreMats cs) mu) zL ≤ (1 + ε) ^ mu * √ (sumIdx sh fun i => f i ^ 2) ∧
      dL (rk mu) (sh.drop mu) (pcL sh f (coreMats cs) mu) (pcL sh f (coreMats cs') mu)
        ≤ mu * ε * (1 + ε) ^ mu * √ (sumIdx sh fun i => f i ^ 2)
  | 0, _, _, _, _, _ => by
    have e : ∀ cs, pcL sh f (coreMats cs) 0 = fun _ q => f q := by
      intro cs; funext a q; simp [pcL, coreMats]
    rw [e, e, h0, List.drop_zero]
    unfold dL distL
    simp [zL, sumIdx_zero]
  | mu + 1, h1, h2, h3, hn, hp => by
    obtain ⟨ih1, ih2⟩ := pcL_near hε h h' h0 mu (by omega) (by omega) (by omega) (fun k hk => hn k (by omega))
      (fun k hk => hp k (by omega))
    obtain ⟨-, p2, p3⟩ := hp mu (by omega)
    have s1 := h mu (by omega)
    have s2 := h' mu (by omega)
    rw [pcL_cont h h0 (by omega) (by omega) (hn mu (by omega)), pcL_cont h' h0 (by omega) (by omega) (hn mu (by omega))]
    rw [drop_cons (by omega), ← hn mu (by omega)] at ih1 ih2
    generalize pcL sh f (coreMats cs) mu = F at *
    generalize pcL sh f (coreMats cs') mu = F' at *
    generalize √ (sumIdx sh fun i => f i ^ 2) = c at *
    have a1 := (cont_diff (C' := cs'.getD mu (ND.zeros [])) s1 (sh.drop (mu + 1)) F).trans
      (mul_le_mul_of_nonneg_right p2 (dL_nonneg _ _ _ _))
    have a2 := cont_contract s2 p3 (sh.drop (mu + 1)) F zL
    rw [cont_zero] at a2
    have a3 := dL_triangle (rk (mu + 1)) (sh.drop (mu + 1)) (cont (cs.getD mu (ND.zeros [])) (rk mu) (n mu) F)
      (cont (cs'.getD mu (ND.zeros [])) (rk mu) (n mu) F) zL
    have a4 := dL_triangle (rk (mu + 1)) (sh.drop (mu + 1)) (cont (cs.getD mu (ND.zeros [])) (rk mu) (n mu) F)
      (cont (cs'.getD mu (ND.zeros [])) (rk mu) (n mu) F) (cont (cs'.getD mu (ND.zeros [])) (rk mu) (n mu) F')
    have a5 := cont_contract s2 p3 (sh.drop (mu + 1)) F F'
    have b1 := mul_le_mul_of_nonneg_left ih1 hε
    have hc : 0 ≤ (1 + ε) ^ mu * c := (dL_nonneg _ _ _ _).trans ih1
    rw [pow_succ]
    constructor
    · have : (1 + ε) ^ mu * (1 + ε) * c = (1 + ε) ^ mu * c + ε * ((1 + ε) ^ mu * c) := by ring
      linarith
    · have e : ((mu + 1 : ℕ) : ℝ) * ε * ((1 + ε) ^ mu * (1 + ε)) * c
          = ε * ((1 + ε) ^ mu * c) + mu * ε * (1 + ε) ^ mu * c + (mu + 1) * ε ^ 2 * ((1 + ε) ^ mu * c) := by
        push_cast; ring
      have : 0 ≤ ((mu : ℝ) + 1) * ε ^ 2 * ((1 + ε) ^ mu * c) := by positivity
      rw [e]
      linarith

/-- Two trains with near cores. -/
theorem trains_near {ε : ℝ} (hε : 0 ≤ ε) : ∀ {Os Ps : List (ND ℝ)} {a : ℕ} {L L' : ND ℝ},
    List.Forall₂ (Partner ε) Os Ps → TTChain a (Os ++ [L]) 1 → L'.shape = L.shape →
    dL a (coreShape (Os ++ [L])) (valL (Os ++ [L])) zL ≤ (1 + ε) ^ Os.length * frobN L ∧
    dL a (coreShape (Os ++ [L])) (valL (Os ++ [L])) (valL (Ps ++ [L']))
      ≤ Os.length * ε * (1 + ε) ^ Os.length * frobN L + frobD L L'
  | _, _, a, L, L', .nil, hc, hs => by
    obtain ⟨n, t, hL, ht⟩ := hc
    have ht : t = 1 := ht
    subst ht
    have e : ∀ L : ND ℝ, L.shape = [a, n, 1] → ∀ x < a, ∀ p, InR (coreShape ([] ++ [L])) p → valL ([] ++ [L]) x p
        = L.get (x :: p ++ [0]) := by
      intro L hL x _ p hp
      rw [List.nil_append, coreShape_cons3 hL] at hp
      match p, hp with
      | [i], _ =>
        show ttVal [L] [i] x 0 = _
        rw [ttVal_cons hL, sum_range_one]
        show L.get [x, i, 0] * 1 = _
        rw [mul_one]; rfl
    have hcs : coreShape ([] ++ [L]) = coreShape ([] ++ [L']) := by
      rw [List.nil_append, List.nil_append, coreShape_cons3 hL, coreShape_cons3 (hs.trans hL)]
    have key : ∀ G : List ℕ → ℝ, √ (sumIdx L.shape fun i => (L.get i - G i) ^ 2)
        = dL a (coreShape ([] ++ [L])) (fun x p => L.get (x :: p ++ [0])) fun x p => G (x :: p ++ [0]) := by
      intro G
      unfold dL distL
      rw [hL, List.nil_append, coreShape_cons3 hL]
      congr 1
      show ∑ x ∈ range a, ∑ j ∈ range n, ∑ z ∈ range 1, _ = ∑ x ∈ range a, ∑ j ∈ range n, _
      refine sum_congr rfl fun x _ => sum_congr rfl fun j _ => ?_
      rw [sum_range_one]; rfl
    constructor
    · rw [dL_congr (e L hL) (G' := zL) (fun _ _ _ _ => rfl)]
      have := key fun _ => 0
      have e' : frobN L = √ (sumIdx L.shape fun i => (L.get i - 0) ^ 2) := by
        unfold frobN normSq; simp only [sub_zero]
      rw [e', this]
      simp only [List.length_nil, pow_zero, one_mul]
      exact le_rfl
    · rw [dL_congr (e L hL) (fun x hx p hp => e L' (hs.trans hL) x hx p (by rwa [← hcs])), ← key]
      simp only [List.length_nil, Nat.cast_zero, zero_mul, zero_add]
      exact le_rfl
  | O :: Os, P :: Ps, a, L, L', .cons hp hps, hc, hs => by
    obtain ⟨n, t, hO, hc⟩ := hc
    obtain ⟨ih1, ih2⟩ := trains_near hε hps hc hs
    obtain ⟨p1, p2, p3⟩ := hp
    have hP := p1.trans hO
    rw [List.cons_append, List.cons_append, coreShape_cons3 hO]
    have e1 : ∀ x < a, ∀ p, InR (n :: coreShape (Os ++ [L])) p →
        valL (O :: (Os ++ [L])) x p = app (O.reshape [a * n, t]) n t (valL (Os ++ [L])) x p :=
      fun x _ p hp => valL_cons hO _ x p hp
    have e2 : ∀ x < a, ∀ p, InR (n :: coreShape (Os ++ [L])) p →
        valL (P :: (Ps ++ [L'])) x p = app (P.reshape [a * n, t]) n t (valL (Ps ++ [L'])) x p :=
      fun x _ p hp => valL_cons hP _ x p hp
    have hOr : Orthn (range (a * n)) t fun s j => (P.reshape [a * n, t]).get [j, s] := by
      obtain ⟨d0, d1, d2⟩ := dim_of_shape3 hP
      intro s hs u hu
      have := p3 s (by rw [d2]; exact hs) u (by rw [d2]; exact hu)
      rw [d0, d1] at this
      rw [← this, range_mul_sum]
      refine sum_congr rfl fun i _ => sum_congr rfl fun j hj => ?_
      beta_reduce
      rw [ND.reshape_merge12 hP _ _ _ (by simpa using hj), ND.reshape_merge12 hP _ _ _ (by simpa using hj)]
    have hd : frobD (O.reshape [a * n, t]) (P.reshape [a * n, t]) ≤ ε := by
      rw [frobD_reshape p1 (by rw [hO]; simp [mul_assoc])]; exact p2
    rw [dL_congr e1 (G' := zL) (fun _ _ _ _ => rfl), dL_congr e1 e2]
    have a1 := (app_change (M' := P.reshape [a * n, t]) (rest := coreShape (Os ++ [L])) (M := O.reshape [a * n, t]) rfl
      (valL (Os ++ [L]))).trans (mul_le_mul_of_nonneg_right hd (dL_nonneg _ _ _ _))
    have a2 := dL_triangle a (n :: coreShape (Os ++ [L])) (app (O.reshape [a * n, t]) n t (valL (Os ++ [L])))
      (app (P.reshape [a * n, t]) n t (valL (Os ++ [L]))) zL
    have a3 := dL_triangle a (n :: coreShape (Os ++ [L])) (app (O.reshape [a * n, t]) n t (valL (Os ++ [L])))
      (app (P.reshape [a * n, t]) n t (valL (Os ++ [L]))) (app (P.reshape [a * n, t]) n t (valL (Ps ++ [L'])))
    rw [app_iso_zero hOr] at a2
    rw [app_iso hOr] at a3
    have b1 := mul_le_mul_of_nonneg_left ih1 hε
    have hc : 0 ≤ (1 + ε) ^ Os.length * frobN L := (dL_nonneg _ _ _ _).trans ih1
    rw [List.length_cons, pow_succ]
    generalize frobN L = c at *
    constructor
    · have : (1 + ε) ^ Os.length * (1 + ε) * c = (1 + ε) ^ Os.length * c + ε * ((1 + ε) ^ Os.length * c) := by ring
      linarith
    · have e : ((Os.length + 1 : ℕ) : ℝ) * ε * ((1 + ε) ^ Os.length * (1 + ε)) * c
          = ε * ((1 + ε) ^ Os.length * c) + Os.length * ε * (1 + ε) ^ Os.length * c
            + (Os.length + 1) * ε ^ 2 * ((1 + ε) ^ Os.length * c) := by
        push_cast; ring
      have : 0 ≤ ((Os.length : ℝ) + 1) * ε ^ 2 * ((1 + ε) ^ Os.length * c) := by positivity
      rw [e]
      linarith

end

/-- A core with its last index contracted. -/
noncomputable def mulU (P : ND ℝ) (r : ℕ) (U : ℕ → List ℕ → ℝ) (x : ℕ) (p : List ℕ) : ℝ :=
  ∑ b ∈ range r, P.get [x, p.headD 0, b] * U b p.tail

theorem mulU_diff {P P' : ND ℝ} {a n r : ℕ} (hP : P.shape = [a, n, r]) (rest : List ℕ) (U : ℕ → List ℕ → ℝ) :
    dL a (n :: rest) (mulU P r U) (mulU P' r U) ≤ frobD P P' * dL r rest U zL := by
  refine (Real.sqrt_le_left (mul_nonneg (frobD_nonneg _ _) (dL_nonneg _ _ _ _))).2 ?_
  rw [mul_pow, dL_sq, frob3 hP, distL_swap r, distL_step, mul_sum]
  refine sum_le_sum fun q _ => ?_
  rw [sum_mul]
  refine sum_le_sum fun x _ => ?_
  rw [sum_mul]
  refine sum_le_sum fun j _ => ?_
  have e : mulU P r U x (j :: q) - mulU P' r U x (j :: q)
      = ∑ b ∈ range r, (P.get [x, j, b] - P'.get [x, j, b]) * U b q := by
    unfold mulU
    rw [← sum_sub_distrib]
    exact sum_congr rfl fun b _ => (sub_mul _ _ _).symm
  rw [e]
  simp only [zL, sub_zero]
  exact sum_mul_sq_le_sq_mul_sq _ _ _

/-- One step with an inexact QR factorisation. -/
theorem orthStep_approx {env : Env ℝ} {ε : ℝ} (hQ : QRApproxContract env ε) {P Q : ND ℝ} {a n r : ℕ}
    (hP : P.shape = [a, n, r]) (hpos : 0 < a * n) (h : orthStep env P none = .ok Q) :
    ∃ (Q' P' : ND ℝ) (y : ℕ → ℕ → ℝ), Partner ε Q Q' ∧ frobD P P' ≤ ε * frobN P ∧
      ∀ i < a, ∀ j < n, ∀ b < r, ∑ t ∈ range r, Q'.get [i, j, t] * y t b = P'.get [i, j, b] := by
  have e : orthStep env P none = (env.qr (P.reshape [a * n, r])).1.reshape? [a, n, r] := by
    unfold orthStep; rw [(dim_of_shape3 hP).1, (dim_of_shape3 hP).2.1, (dim_of_shape3 hP).2.2]
  rw [e] at h
  obtain ⟨q1, M', Q', hM', q2, q3, q4⟩ := hQ (P.reshape [a * n, r]) (a * n) r rfl
  unfold ND.reshape? at h
  split at h
  · next hp =>
    rw [q1] at hp
    have hmin : min (a * n) r = r := by
      have : a * n * min (a * n) r = a * n * r := by simpa [mul_assoc] using hp
      exact Nat.eq_of_mul_eq_mul_left hpos this
    have q5 := q2.shapeQ
    have q6 := q2.mul
    have q7 := q2.orth
    rw [hmin] at q1 q5 q6 q7
    injection h with h
    subst h
    have hg : ∀ i j t, j < n → (Q'.reshape [a, n, r]).get [i, j, t] = Q'.get [i * n + j, t] :=
      fun i j t hj => ND.reshape_split12 q5 i j t hj
    refine ⟨Q'.reshape [a, n, r], M'.reshape [a, n, r], fun t b => (env.qr (P.reshape [a * n, r])).2.get [t, b],
      ⟨rfl, ?_, fun s hs t ht => ?_⟩, ?_, fun i hi j hj c hc => ?_⟩
    · rw [frobD_reshape (by rw [q1, q5]) (by rw [q1]; simp [mul_assoc])]; exact q4
    · have hs : s < r := hs
      have ht : t < r := ht
      show ∑ x ∈ range a, ∑ j ∈ range n, _ = _
      rw [← q7 s hs t ht, range_mul_sum]
      refine sum_congr rfl fun x _ => sum_congr rfl fun j hj => ?_
      rw [hg _ _ _ (by simpa using hj), hg _ _ _ (by simpa using hj)]
    · have e1 : (P.reshape [a * n, r]).reshape [a, n, r] = P := by
        rw [ND.reshape_reshape (by rw [hP]; simp [mul_assoc]) (by rw [hP]), ← hP, ND.reshape_self]
      have h1 := frobD_reshape (A := P.reshape [a * n, r]) (B := M') (s := [a, n, r]) hM' (by simp [ND.reshape, mul_assoc])
      rw [e1] at h1
      rw [h1, ← frobN_reshape (A := P) (s := [a * n, r]) (by rw [hP]; simp [mul_assoc])]
      exact q3
    · rw [ND.reshape_split12 hM' i j c hj, ← q6 (i * n + j) ((ND.lt_mul_iff hj).2 hi) c hc]
      exact sum_congr rfl fun t _ => by rw [hg _ _ _ hj]
  · cases h

section
variable {sh : List ℕ} {f : List ℕ → ℝ} {R : Mats ℝ}

/-- `(A_k R) U` as a tensor. -/
noncomputable def projU (sh : List ℕ) (f : List ℕ → ℝ) (R : Mats ℝ) (k r : ℕ) (U : ℕ → List ℕ → ℝ) (i : List ℕ) : ℝ :=
  ∑ b ∈ range r, pcR sh f R k (i.take k) b * U b (i.drop k)

theorem pcL_projU {mu : ℕ} (hmu : mu < sh.length) (L : Mats ℝ) (r : ℕ) (U : ℕ → List ℕ → ℝ) (a j : ℕ) (q : List ℕ) :
    pcL sh (projU sh f R (mu + 1) r U) L mu a (j :: q) = ∑ b ∈ range r, psiSpec sh f L R mu a j b * U b q := by
  unfold pcL projU
  have e : ∀ p, InR (sh.take mu) p → L mu p a * ∑ b ∈ range r,
        pcR sh f R (mu + 1) ((p ++ j :: q).take (mu + 1)) b * U b ((p ++ j :: q).drop (mu + 1))
      = ∑ b ∈ range r, L mu p a * pcR sh f R (mu + 1) (p ++ [j]) b * U b q := by
    intro p hp
    have hpl : p.length = mu := by rw [hp.length, List.length_take]; omega
    have e1 : (p ++ j :: q).take (mu + 1) = p ++ [j] := by
      rw [show p ++ j :: q = (p ++ [j]) ++ q by simp, List.take_left' (by simp [hpl])]
    have e2 : (p ++ j :: q).drop (mu + 1) = q := by
      rw [show p ++ j :: q = (p ++ [j]) ++ q by simp, List.drop_left' (by simp [hpl])]
    rw [e1, e2, mul_sum]
    exact sum_congr rfl fun b _ => by ring
  rw [sumIdx_congr e, sumIdx_sum]
  refine sum_congr rfl fun b _ => ?_
  rw [psiSpec_right, sumIdx_mul]

theorem projU_norm (k r : ℕ) (hk : k ≤ sh.length) (U : ℕ → List ℕ → ℝ) :
    √ (sumIdx sh fun i => projU sh f R k r U i ^ 2)
      ≤ √ (sumIdx (sh.take k) fun p => ∑ b ∈ range r, pcR sh f R k p b ^ 2) * dL r (sh.drop k) U zL := by
  unfold dL
  rw [← Real.sqrt_mul (by rw [sumIdx_eq_sum]; exact sum_nonneg fun _ _ => sum_nonneg fun _ _ => sq_nonneg _)]
  refine Real.sqrt_le_sqrt ?_
  have e0 : ∀ g : List ℕ → ℝ, sumIdx sh g = sumIdx (sh.take k ++ sh.drop k) g := by
    intro g; rw [List.take_append_drop]
  rw [e0, sumIdx_append, sumIdx_eq_sum, sumIdx_eq_sum, sum_mul]
  refine sum_le_sum fun p hp => ?_
  rw [sumIdx_eq_sum, distL_swap, mul_sum]
  refine sum_le_sum fun q _ => ?_
  have hpl : p.length = k := by rw [(mem_idxSet.1 hp).length, List.length_take]; omega
  unfold projU
  rw [List.take_left' hpl, List.drop_left' hpl]
  simp only [zL, sub_zero]
  exact sum_mul_sq_le_sq_mul_sq (range r) (fun b => pcR sh f R k p b) fun b => U b q

/-- The norm of a sketched array contracted with cores near left-orthogonal ones. -/
theorem front_norm {cs cs' : List (ND ℝ)} {rk n : ℕ → ℕ} {ε : ℝ} (hε : 0 ≤ ε) (h : Cores cs rk n) (h' : Cores cs' rk n)
    (h0 : rk 0 = 1) {mu : ℕ} (h1 : mu ≤ cs.length) (h2 : mu ≤ cs'.length) (h3 : mu < sh.length)
    (hn : ∀ k, n k = sh.getD k 0)
    (hp : ∀ k < mu, Partner ε (cs.getD k (ND.zeros [])) (cs'.getD k (ND.zeros []))) (r : ℕ) (T : List ℕ → ℕ → ℝ) {P : ND ℝ}
    (hP : P.shape = [rk mu, n mu, r]) (hg : ∀ a < rk mu, ∀ j < n mu, ∀ b < r,
      P.get [a, j, b] = sumIdx (sh.take mu) fun p => coreMats cs mu p a * T (p ++ [j]) b) :
    frobN P ≤ (1 + ε) ^ mu * √ (sumIdx (sh.take (mu + 1)) fun p => ∑ b ∈ range r, T p b ^ 2) := by
  let g : List ℕ → ℝ := fun i => T (i.take (mu + 1)) (i.getD (mu + 1) 0)
  have hlen : (sh.take (mu + 1)).length = mu + 1 := by rw [List.length_take]; omega
  have hgd : ∀ k < mu + 1, (sh.take (mu + 1) ++ [r]).getD k 0 = sh.getD k 0 := by
    intro k hk
    rw [List.getD_append _ _ _ _ (by omega), List.getD_eq_getElem?_getD, List.getD_eq_getElem?_getD,
      List.getElem?_take, if_pos hk]
  have key := (pcL_near (sh := sh.take (mu + 1) ++ [r]) (f := g) hε h h' h0 mu h1 h2 (by simp; omega)
    (fun k hk => by rw [hgd k (by omega), hn]) hp).1
  have ed : (sh.take (mu + 1) ++ [r]).drop mu = [n mu, r] := by
    rw [drop_cons (by simp; omega), hgd mu (by omega), ← hn mu]
    congr 1
    rw [List.drop_left' hlen]
  have et : (sh.take (mu + 1) ++ [r]).take mu = sh.take mu := by
    rw [List.take_append_of_le_length (by omega), List.take_take, min_eq_left (by omega)]
  have e1 : dL (rk mu) ((sh.take (mu + 1) ++ [r]).drop mu) (pcL (sh.take (mu + 1) ++ [r]) g (coreMats cs) mu) zL
      = frobN P := by
    rw [ed, ← dL_ent_zero hP]
    refine dL_congr (fun a ha p hp => ?_) fun _ _ _ _ => rfl
    match p, hp with
    | [j, b], hp =>
      show _ = P.get [a, j, b]
      rw [hg a ha j hp.1 b hp.2.1]
      unfold pcL
      rw [et]
      refine sumIdx_congr fun p hp' => ?_
      have hpl : p.length = mu := by rw [hp'.length, List.length_take]; omega
      congr 1
      show T ((p ++ [j, b]).take (mu + 1)) ((p ++ [j, b]).getD (mu + 1) 0) = _
      rw [show p ++ [j, b] = (p ++ [j]) ++ [b] by simp, List.take_left' (by simp [hpl]),
        List.getD_append_right _ _ _ _ (by simp [hpl])]
      simp [hpl]
  have e2 : sumIdx (sh.take (mu + 1) ++ [r]) (fun i => g i ^ 2)
      = sumIdx (sh.take (mu + 1)) fun p => ∑ b ∈ range r, T p b ^ 2 := by
    rw [sumIdx_append]
    refine sumIdx_congr fun p hp' => ?_
    have hpl : p.length = mu + 1 := by rw [hp'.length, hlen]
    show ∑ b ∈ range r, _ = _
    refine sum_congr rfl fun b _ => ?_
    show T ((p ++ [b]).take (mu + 1)) ((p ++ [b]).getD (mu + 1) 0) ^ 2 = _
    rw [List.take_left' hpl, List.getD_append_right _ _ _ _ (by simp [hpl])]
    simp [hpl]
  rw [e1, e2] at key
  exact key

/-- The norm of the core before orthogonalisation. -/
theorem psi_norm {cs cs' : List (ND ℝ)} {rk n : ℕ → ℕ} {ε : ℝ} (hε : 0 ≤ ε) (h : Cores cs rk n) (h' : Cores cs' rk n)
    (h0 : rk 0 = 1) {mu : ℕ} (h1 : mu ≤ cs.length) (h2 : mu ≤ cs'.length) (h3 : mu < sh.length)
    (hn : ∀ k, n k = sh.getD k 0)
    (hp : ∀ k < mu, Partner ε (cs.getD k (ND.zeros [])) (cs'.getD k (ND.zeros []))) (r : ℕ) {P : ND ℝ}
    (hP : P.shape = [rk mu, n mu, r]) (hg : ∀ a < rk mu, ∀ j < n mu, ∀ b < r,
      P.get [a, j, b] = psiSpec sh f (coreMats cs) R mu a j b) :
    frobN P ≤ (1 + ε) ^ mu * √ (sumIdx (sh.take (mu + 1)) fun p => ∑ b ∈ range r, pcR sh f R (mu + 1) p b ^ 2) := by
  refine front_norm hε h h' h0 h1 h2 h3 hn hp r (pcR sh f R (mu + 1)) hP fun a ha j hj b hb => ?_
  rw [hg a ha j hj b hb, psiSpec_right]

end

/-- The defect of one bond, for a core whose factorised matrix is `P'`. -/
theorem defect_gen {sh : List ℕ} {f : List ℕ → ℝ} {R : Mats ℝ} {cs cs' : List (ND ℝ)} {rk n : ℕ → ℕ} {ε : ℝ}
    (hε : 0 ≤ ε) (h : Cores cs rk n) (h' : Cores cs' rk n)
    (h0 : rk 0 = 1) {mu : ℕ} (h1 : mu ≤ cs.length) (h2 : mu < cs'.length) (h3 : mu < sh.length)
    (hn : ∀ k, n k = sh.getD k 0)
    (hp : ∀ k < mu, Partner ε (cs.getD k (ND.zeros [])) (cs'.getD k (ND.zeros [])))
    {P P' : ND ℝ} {y : ℕ → ℕ → ℝ} {r : ℕ}
    (hg : ∀ a < rk mu, ∀ j < n mu, ∀ b < r, P.get [a, j, b] = psiSpec sh f (coreMats cs) R mu a j b)
    (hy : ∀ a < rk mu, ∀ j < n mu, ∀ b < rk (mu + 1),
      ∑ t ∈ range (rk (mu + 1)), (cs'.getD mu (ND.zeros [])).get [a, j, t] * y t b = P'.get [a, j, b])
    (U V : ℕ → List ℕ → ℝ) {τ : ℝ}
    (hτ : dL (rk mu) (sh.drop mu) (mulU P r U) (mulU P' (rk (mu + 1)) V) ≤ τ) :
    ∃ z : ℕ → List ℕ → ℝ, (∑ a ∈ range (rk mu), ∑ j ∈ range (n mu), sumIdx (sh.drop (mu + 1)) fun q =>
        (pcL sh f (coreMats cs') mu a (j :: q)
          - ∑ t ∈ range (rk (mu + 1)), (cs'.getD mu (ND.zeros [])).get [a, j, t] * z t q) ^ 2)
      ≤ (√ (sumIdx sh fun i => (f i - projU sh f R (mu + 1) r U i) ^ 2)
          + (mu * ε * (1 + ε) ^ mu
            * (√ (sumIdx (sh.take (mu + 1)) fun p => ∑ b ∈ range r, pcR sh f R (mu + 1) p b ^ 2)
              * dL r (sh.drop (mu + 1)) U zL) + τ)) ^ 2 := by
  refine ⟨fun t q => ∑ b ∈ range (rk (mu + 1)), y t b * V b q, ?_⟩
  obtain ⟨hh, hhd⟩ : ∃ hh, hh = projU sh f R (mu + 1) r U := ⟨_, rfl⟩
  rw [← hhd]
  have e1 : (∑ a ∈ range (rk mu), ∑ j ∈ range (n mu), sumIdx (sh.drop (mu + 1)) fun q =>
        (pcL sh f (coreMats cs') mu a (j :: q) - ∑ t ∈ range (rk (mu + 1)), (cs'.getD mu (ND.zeros [])).get [a, j, t]
          * ∑ b ∈ range (rk (mu + 1)), y t b * V b q) ^ 2)
      = dL (rk mu) (n mu :: sh.drop (mu + 1)) (pcL sh f (coreMats cs') mu) (mulU P' (rk (mu + 1)) V) ^ 2 := by
    rw [dL_sq]
    unfold distL
    refine sum_congr rfl fun a ha => ?_
    rw [sumIdx_cons]
    refine sum_congr rfl fun j hj => sumIdx_congr fun q _ => ?_
    congr 2
    show _ = ∑ b ∈ range (rk (mu + 1)), P'.get [a, j, b] * V b q
    rw [sum_congr rfl fun t _ => mul_sum _ _ _, sum_comm]
    refine sum_congr rfl fun b hb => ?_
    rw [← hy a (by simpa using ha) j (by simpa using hj) b (by simpa using hb), sum_mul]
    exact sum_congr rfl fun t _ => (mul_assoc _ _ _).symm
  rw [e1]
  refine pow_le_pow_left₀ (dL_nonneg _ _ _ _) ?_ 2
  have hd : n mu :: sh.drop (mu + 1) = sh.drop mu := by rw [drop_cons h3, hn]
  -- three distances
  have t1 : dL (rk mu) (sh.drop mu) (pcL sh f (coreMats cs') mu) (pcL sh hh (coreMats cs') mu)
      ≤ √ (sumIdx sh fun i => (f i - hh i) ^ 2) := by
    have k := (pcL_near (sh := sh) (f := fun i => f i - hh i) le_rfl h' h' h0 mu (by omega) (by omega) (by omega)
      (fun k _ => hn k) fun k hk => ⟨rfl, by rw [frobD_self], (hp k hk).2.2⟩).1
    simp only [add_zero, one_pow, one_mul] at k
    refine le_trans (le_of_eq ?_) k
    rw [← dL_sub]
    refine dL_congr (fun a _ q _ => ?_) fun _ _ _ _ => rfl
    rw [pcL_sub]
  have hσ := projU_norm (sh := sh) (f := f) (R := R) (mu + 1) r (by omega) U
  rw [← hhd] at hσ
  have t2 := (pcL_near (sh := sh) (f := hh) hε h h' h0 mu h1 (by omega) (by omega) (fun k _ => hn k) hp).2
  have t3 : dL (rk mu) (sh.drop mu) (pcL sh hh (coreMats cs) mu) (mulU P r U) = 0 := by
    unfold dL distL
    rw [sum_eq_zero, Real.sqrt_zero]
    intro a ha
    refine sumIdx_eq_zero fun p hp => ?_
    rw [drop_cons h3] at hp
    match p, hp with
    | j :: q, hp =>
      rw [hhd, pcL_projU h3]
      show (_ - ∑ b ∈ range r, P.get [a, j, b] * U b q) ^ 2 = 0
      rw [← sum_sub_distrib, sum_eq_zero]
      · simp
      · intro b hb
        rw [hg a (by simpa using ha) j (by rw [hn]; exact hp.1) b (by simpa using hb), sub_self]
  rw [hd]
  have c1 := dL_triangle (rk mu) (sh.drop mu) (pcL sh f (coreMats cs') mu) (pcL sh hh (coreMats cs') mu)
    (mulU P' (rk (mu + 1)) V)
  have c2 := dL_triangle (rk mu) (sh.drop mu) (pcL sh hh (coreMats cs') mu) (pcL sh hh (coreMats cs) mu)
    (mulU P' (rk (mu + 1)) V)
  have c3 := dL_triangle (rk mu) (sh.drop mu) (pcL sh hh (coreMats cs) mu) (mulU P r U)
    (mulU P' (rk (mu + 1)) V)
  rw [dL_symm] at t2
  have d1 := mul_le_mul_of_nonneg_left hσ (show 0 ≤ mu * ε * (1 + ε) ^ mu by positivity)
  linarith

/-- The defect of one bond of the method `hmt`. -/
theorem defect_near {sh : List ℕ} {f : List ℕ → ℝ} {R : Mats ℝ} {cs cs' : List (ND ℝ)} {rk n : ℕ → ℕ} {ε : ℝ}
    (hε : 0 ≤ ε) (h : Cores cs rk n) (h' : Cores cs' rk n)
    (h0 : rk 0 = 1) {mu : ℕ} (h1 : mu ≤ cs.length) (h2 : mu < cs'.length) (h3 : mu < sh.length)
    (hn : ∀ k, n k = sh.getD k 0)
    (hp : ∀ k < mu, Partner ε (cs.getD k (ND.zeros [])) (cs'.getD k (ND.zeros [])))
    {P P' : ND ℝ} {y : ℕ → ℕ → ℝ} (hP : P.shape = [rk mu, n mu, rk (mu + 1)])
    (hg : ∀ a < rk mu, ∀ j < n mu, ∀ b < rk (mu + 1), P.get [a, j, b] = psiSpec sh f (coreMats cs) R mu a j b)
    (hPP : frobD P P' ≤ ε * frobN P)
    (hy : ∀ a < rk mu, ∀ j < n mu, ∀ b < rk (mu + 1),
      ∑ t ∈ range (rk (mu + 1)), (cs'.getD mu (ND.zeros [])).get [a, j, t] * y t b = P'.get [a, j, b])
    (U : ℕ → List ℕ → ℝ) :
    ∃ z : ℕ → List ℕ → ℝ, (∑ a ∈ range (rk mu), ∑ j ∈ range (n mu), sumIdx (sh.drop (mu + 1)) fun q =>
        (pcL sh f (coreMats cs') mu a (j :: q)
          - ∑ t ∈ range (rk (mu + 1)), (cs'.getD mu (ND.zeros [])).get [a, j, t] * z t q) ^ 2)
      ≤ (√ (sumIdx sh fun i => (f i - projU sh f R (mu + 1) (rk (mu + 1)) U i) ^ 2)
          + (mu + 1) * ε * (1 + ε) ^ mu
            * (√ (sumIdx (sh.take (mu + 1)) fun p => ∑ b ∈ range (rk (mu + 1)), pcR sh f R (mu + 1) p b ^ 2)
              * dL (rk (mu + 1)) (sh.drop (mu + 1)) U zL)) ^ 2 := by
  have hd : n mu :: sh.drop (mu + 1) = sh.drop mu := by rw [drop_cons h3, hn]
  have t4 := mulU_diff (P' := P') hP (sh.drop (mu + 1)) U
  rw [hd] at t4
  have t5 := psi_norm (R := R) hε h h' h0 h1 (by omega) h3 hn hp (rk (mu + 1)) hP hg
  have hu := dL_nonneg (rk (mu + 1)) (sh.drop (mu + 1)) U zL
  have d2 := mul_le_mul_of_nonneg_right (hPP.trans (mul_le_mul_of_nonneg_left t5 hε)) hu
  obtain ⟨z, hz⟩ := defect_gen hε h h' h0 h1 h2 h3 hn hp hg hy U U (t4.trans d2)
  refine ⟨z, hz.trans (le_of_eq ?_)⟩
  ring

theorem partner_shape {ε : ℝ} {O P : ND ℝ} (h : Partner ε O P) : P.shape = O.shape := h.1

/-- A train whose cores but the last are near left-orthogonal ones, and whose last core is the contraction of the tensor with
the others. -/
theorem frame_run {ε : ℝ} (hε : 0 ≤ ε) {A : ND ℝ} {lr : List ℕ} {Y : TT ℝ} {Q' : ℕ → ND ℝ}
    (hd : 2 ≤ A.shape.length) (hl : lr.length = A.shape.length - 1) (hlen : Y.cores.length = A.shape.length)
    (hC : Cores Y.cores (fun k => (1 :: lr ++ [1]).getD k 0) fun k => A.shape.getD k 0)
    (hlast : ∀ a < (1 :: lr ++ [1]).getD (A.shape.length - 1) 0, ∀ j < A.shape.getD (A.shape.length - 1) 0,
      (Y.cores.getD (A.shape.length - 1) (ND.zeros [])).get [a, j, 0]
        = pcL A.shape A.get (coreMats Y.cores) (A.shape.length - 1) a [j])
    (hQ' : ∀ mu < A.shape.length - 1, Partner ε (Y.cores.getD mu (ND.zeros [])) (Q' mu))
    (e τ : ℕ → ℝ) (he : ∀ mu < A.shape.length - 1, 0 ≤ e mu)
    (hdef : ∀ cs' : List (ND ℝ), cs'.length = A.shape.length →
      Cores cs' (fun k => (1 :: lr ++ [1]).getD k 0) (fun k => A.shape.getD k 0) →
      (∀ mu < A.shape.length - 1, cs'.getD mu (ND.zeros []) = Q' mu) → ∀ mu < A.shape.length - 1,
      ∃ z : ℕ → List ℕ → ℝ, (∑ a ∈ range ((1 :: lr ++ [1]).getD mu 0), ∑ j ∈ range (A.shape.getD mu 0),
          sumIdx (A.shape.drop (mu + 1)) fun q => (pcL A.shape A.get (coreMats cs') mu a (j :: q)
            - ∑ t ∈ range ((1 :: lr ++ [1]).getD (mu + 1) 0), (cs'.getD mu (ND.zeros [])).get [a, j, t] * z t q) ^ 2)
        ≤ (√ (e mu) + τ mu) ^ 2) :
    frobD A Y.toNumpy ≤ √ (∑ mu ∈ range (A.shape.length - 1), e mu) + √ (∑ mu ∈ range (A.shape.length - 1), τ mu ^ 2)
      + 2 * (A.shape.length - 1 : ℕ) * ε * (1 + ε) ^ (2 * (A.shape.length - 1)) * frobN A := by
  obtain ⟨N, hN⟩ : ∃ N, N = A.shape.length - 1 := ⟨_, rfl⟩
  rw [← hN] at hlast hQ' hdef he ⊢
  obtain ⟨rk, hrk⟩ : ∃ rk : ℕ → ℕ, rk = fun k => (1 :: lr ++ [1]).getD k 0 := ⟨_, rfl⟩
  obtain ⟨n, hn'⟩ : ∃ n : ℕ → ℕ, n = fun k => A.shape.getD k 0 := ⟨_, rfl⟩
  have hn : ∀ k, n k = A.shape.getD k 0 := fun k => by rw [hn']
  have rk0 : rk 0 = 1 := by rw [hrk]; rfl
  have rkN : rk (N + 1) = 1 := by rw [hrk]; exact aug_last (by omega)
  have rkl : ∀ mu < N, rk mu = (1 :: lr).getD mu 0 := fun mu hmu => by rw [hrk]; exact aug_left (by omega)
  have rkr : ∀ mu < N, rk (mu + 1) = lr.getD mu 0 := fun mu hmu => by rw [hrk]; exact aug_right (by omega)
  have hC0 : Cores Y.cores rk n := by rw [hrk, hn']; exact hC
  let Ps : List (ND ℝ) := (List.range N).map Q'
  have hPl : Ps.length = N := by simp [Ps]
  let L' : ND ℝ := ND.ofFn [rk N, n N, 1] fun i => pcL A.shape A.get (coreMats Ps) N (i.getD 0 0) [i.getD 1 0]
  let cs' : List (ND ℝ) := Ps ++ [L']
  have hl' : cs'.length = A.shape.length := by simp only [cs', List.length_append, hPl, List.length_singleton]; omega
  have hcs' : ∀ mu < N, cs'.getD mu (ND.zeros []) = Q' mu := by
    intro mu hmu
    rw [List.getD_append _ _ _ _ (by omega)]
    exact getD_map_range _ _ _ _ hmu
  have hcsN : cs'.getD N (ND.zeros []) = L' := by
    rw [List.getD_append_right _ _ _ _ (by omega), hPl, Nat.sub_self]; rfl
  have hpar : ∀ mu < N, Partner ε (Y.cores.getD mu (ND.zeros [])) (cs'.getD mu (ND.zeros [])) := by
    intro mu hmu; rw [hcs' mu hmu]; exact hQ' mu hmu
  have hC' : Cores cs' rk n := by
    intro mu hmu
    rw [hl'] at hmu
    by_cases hm : mu < N
    · rw [(hpar mu hm).1]; exact hC0 mu (by omega)
    · have : mu = N := by omega
      subst this
      rw [hcsN, rkN]; rfl
  have hmats : coreMats cs' N = coreMats Ps N := by
    rw [← coreMats_take cs' le_rfl, List.take_left' hPl]
  have hlast' : ∀ a < rk N, ∀ j < A.shape.getD N 0,
      (cs'.getD N (ND.zeros [])).get [a, j, 0] = pcL A.shape A.get (coreMats cs') N a [j] := by
    intro a ha j hj
    rw [hcsN, ND.ofFn_get (s := [rk N, n N, 1]) (i := [a, j, 0]) ⟨ha, by rw [hn]; exact hj, Nat.one_pos, trivial⟩]
    unfold pcL
    rw [hmats]; rfl
  have ho' : ∀ mu < N, (cs'.getD mu (ND.zeros [])).LeftOrthogonal := fun mu hmu => (hpar mu hmu).2.2
  -- the exact projection
  have hC'' : Cores cs' (fun k => (1 :: lr ++ [1]).getD k 0) (fun k => A.shape.getD k 0) := by rw [← hrk, ← hn']; exact hC'
  have hrkN : rk N = (1 :: lr ++ [1]).getD N 0 := by rw [hrk]
  obtain ⟨v1, v2, -⟩ := cores_tt hC'' (by omega) hl' hl
  obtain ⟨w1, w2, -⟩ := cores_tt hC (by omega) hlen hl
  have w1 : Y.Valid := w1
  have w2 : Y.shape = A.shape := w2
  have hproj := frame_projects (A := A) (Y := TT.mk cs') (lr := lr) (by omega) hl hl' hC'' (by rw [← hN]; exact ho')
    (by rw [← hN, ← hrkN]; exact hlast')
  have n0 : normSq (TT.mk cs').toNumpy = sumIdx A.shape fun i => ttEntry (TT.mk cs') i ^ 2 := by
    unfold normSq
    rw [TT.toNumpy_shape v1, v2]
    exact sumIdx_congr fun i _ => by rw [TT.toNumpy_get v1]
  obtain ⟨K, hK⟩ : ∃ K : ℝ, K = N * ε * (1 + ε) ^ N := ⟨_, rfl⟩
  have hK0 : 0 ≤ K := by rw [hK]; positivity
  have herr : distSq A (TT.mk cs').toNumpy ≤ ∑ mu ∈ range N, (√ (e mu) + τ mu) ^ 2 := by
    have e1 : distSq A (TT.mk cs').toNumpy = normSq A - normSq (TT.mk cs').toNumpy := by have := hproj.norm; linarith
    rw [e1, n0, frame_norm hC' rk0 (by rw [show A.shape.length = N + 1 by omega, rkN]) hn (by omega) hl' (by rw [← hN]; exact ho')
      (by rw [← hN]; exact hlast'), ← hN]
    refine frame_error hC' rk0 hn _ _ (by omega) (by omega) ho' fun mu hmu => ?_
    obtain ⟨z, hz⟩ := hdef cs' hl' hC'' hcs' mu hmu
    rw [hrk, hn']
    exact ⟨z, hz⟩
  have hfirst : frobD A (TT.mk cs').toNumpy ≤ √ (∑ mu ∈ range N, e mu) + √ (∑ mu ∈ range N, τ mu ^ 2) := by
    refine (Real.sqrt_le_sqrt herr).trans ((sqrt_sum_add_le (range N) _ _).trans (le_of_eq ?_))
    congr 2
    exact sum_congr rfl fun mu hmu => Real.sq_sqrt (he mu (by simpa using hmu))
  -- the computed train
  have hne : Y.cores ≠ [] := by intro e; rw [e] at hlen; simp at hlen; omega
  obtain ⟨L, hLdef⟩ : ∃ L, L = Y.cores.getD N (ND.zeros []) := ⟨_, rfl⟩
  have hY : Y.cores = Y.cores.take N ++ [L] := by
    rw [hLdef, getD_eq (by omega), List.take_append_getElem]
    rw [show N + 1 = Y.cores.length by omega, List.take_length]
  have hLs : L.shape = [rk N, n N, 1] := by rw [hLdef, hC0 N (by omega), rkN]
  have hfor : List.Forall₂ (Partner ε) (Y.cores.take N) Ps := by
    refine List.forall₂_iff_get.2 ⟨by rw [hPl, List.length_take]; omega, fun i h1 h2 => ?_⟩
    have hi : i < N := by rw [hPl] at h2; exact h2
    have := hQ' i hi
    rw [getD_eq (by omega)] at this
    simpa [Ps] using this
  have hchain : TTChain 1 (Y.cores.take N ++ [L]) 1 := by rw [← hY]; exact w1.2
  obtain ⟨-, z2⟩ := trains_near hε hfor hchain (L' := L') (by rw [hLs]; rfl)
  have hdrop : A.shape.drop N = [n N] := by
    rw [drop_cons (by omega), hn, show N + 1 = A.shape.length by omega, List.drop_length]
  obtain ⟨y1, y2⟩ := pcL_near (sh := A.shape) (f := A.get) hε hC0 hC' rk0 N (by omega) (by omega) (by omega) (fun k _ => hn k) hpar
  rw [hdrop] at y1 y2
  have hLg : ∀ a < rk N, ∀ j < n N, L.get [a, j, 0] = pcL A.shape A.get (coreMats Y.cores) N a [j] := by
    intro a ha j hj
    rw [hLdef]
    exact hlast a (by rw [← hrkN]; exact ha) j (by rw [← hn]; exact hj)
  have hL'g : ∀ a < rk N, ∀ j < n N, L'.get [a, j, 0] = pcL A.shape A.get (coreMats cs') N a [j] := by
    intro a ha j hj
    rw [← hcsN]
    exact hlast' a ha j (by rw [← hn]; exact hj)
  have three : ∀ G : ℕ → List ℕ → ℝ, ∀ M : ND ℝ, (∀ a < rk N, ∀ j < n N, M.get [a, j, 0] = G a [j]) →
      dL (rk N) [n N] (pcL A.shape A.get (coreMats Y.cores) N) G = frobD L M := by
    intro G M hM
    unfold dL distL frobD distSq
    rw [hLs]
    congr 1
    show ∑ x ∈ range (rk N), ∑ j ∈ range (n N), _ = ∑ x ∈ range (rk N), ∑ j ∈ range (n N), ∑ z ∈ range 1, _
    refine sum_congr rfl fun a ha => sum_congr rfl fun j hj => ?_
    rw [sum_range_one]
    show (_ - _) ^ 2 = (L.get [a, j, 0] - M.get [a, j, 0]) ^ 2
    rw [hM a (by simpa using ha) j (by simpa using hj), hLg a (by simpa using ha) j (by simpa using hj)]
  rw [three _ L' hL'g] at y2
  rw [three zL (ND.zeros [rk N, n N, 1]) (fun a _ j _ => by rw [ND.zeros_get]; rfl), frobD_zeros] at y1
  have hfA : √ (sumIdx A.shape fun i => A.get i ^ 2) = frobN A := rfl
  rw [hfA] at y1 y2
  have hYd : dL 1 A.shape (valL Y.cores) (valL cs') = frobD Y.toNumpy (TT.mk cs').toNumpy := by
    unfold dL distL frobD distSq
    rw [sum_range_one, TT.toNumpy_shape w1, w2]
    congr 1
    exact sumIdx_congr fun p _ => by rw [TT.toNumpy_get w1, TT.toNumpy_get v1]; rfl
  have hcsh : coreShape (Y.cores.take N ++ [L]) = A.shape := by rw [← hY]; exact w2
  rw [hcsh, ← hY, List.length_take, min_eq_left (by omega : N ≤ Y.cores.length)] at z2
  rw [hYd] at z2
  have tri := frobD_triangle (A := A) (B := (TT.mk cs').toNumpy) (C := Y.toNumpy) (by rw [TT.toNumpy_shape v1, v2])
  rw [frobD_symm (A := (TT.mk cs').toNumpy) (by rw [TT.toNumpy_shape v1, v2, TT.toNumpy_shape w1, w2])] at tri
  have f0 := frobN_nonneg A
  have g1 := mul_le_mul_of_nonneg_left y1 hK0
  have g2 : K * ((1 + ε) ^ N * frobN A) + K * frobN A ≤ 2 * N * ε * (1 + ε) ^ (2 * N) * frobN A := by
    have h1 : (1 + ε) ^ N ≤ (1 + ε) ^ (2 * N) := pow_le_pow_right₀ (by linarith) (by omega)
    have h2 : (1 + ε) ^ N * (1 + ε) ^ N = (1 + ε) ^ (2 * N) := by rw [← pow_add]; congr 1; omega
    have h3 := mul_le_mul_of_nonneg_left h1 (show 0 ≤ N * ε * frobN A by positivity)
    calc K * ((1 + ε) ^ N * frobN A) + K * frobN A
        = N * ε * frobN A * ((1 + ε) ^ N * (1 + ε) ^ N) + N * ε * frobN A * (1 + ε) ^ N := by rw [hK]; ring
      _ ≤ _ := by rw [h2]; linarith
  rw [← hK] at z2 y2
  linarith

/-- The whole run. -/
theorem hmt_approx {env : Env ℝ} {ε : ℝ} (hε : 0 ≤ ε) (hQ : QRApproxContract env ε) {A : ND ℝ} {R : Mats ℝ}
    {lr : List ℕ} {Y : TT ℝ} (h : OrthRun env A.shape A.get R lr lr none Y.cores A.shape.length)
    (hd : 2 ≤ A.shape.length) (hl : lr.length = A.shape.length - 1) (hR : ∀ b, R A.shape.length [] b = 1)
    (p1 : ∀ n ∈ A.shape, 0 < n) (p2 : ∀ r ∈ lr, 0 < r) (B : ℕ → ℕ → List ℕ → ℝ) :
    (∀ mu < A.shape.length - 1, ∃ C', Partner ε (Y.cores.getD mu (ND.zeros [])) C') ∧
    frobD A Y.toNumpy ≤ √ (∑ mu ∈ range (A.shape.length - 1), rangeErrSq A R (mu + 1) (lr.getD mu 0) (B mu))
      + (A.shape.length - 1 : ℕ) * ε * (1 + ε) ^ (A.shape.length - 1) * √ (∑ mu ∈ range (A.shape.length - 1),
          (sketchedNorm A R (mu + 1) (lr.getD mu 0) * coeffNorm A.shape (mu + 1) (lr.getD mu 0) (B mu)) ^ 2)
      + 2 * (A.shape.length - 1 : ℕ) * ε * (1 + ε) ^ (2 * (A.shape.length - 1)) * frobN A := by
  obtain ⟨N, hN⟩ : ∃ N, N = A.shape.length - 1 := ⟨_, rfl⟩
  rw [← hN]
  have hlen : Y.cores.length = A.shape.length := h.len
  have hC := orthRun_shape h hl hl rfl le_rfl
  have hlast := orthRun_last h (by omega) hl hl hR
  rw [← hN] at hlast
  -- partners
  have key : ∀ mu, ∃ (Q' P' : ND ℝ) (y : ℕ → ℕ → ℝ), mu < N → Partner ε (Y.cores.getD mu (ND.zeros [])) Q' ∧
      frobD (psiOf A.shape A.get R lr lr Y.cores mu) P' ≤ ε * frobN (psiOf A.shape A.get R lr lr Y.cores mu) ∧
      ∀ i < (1 :: lr).getD mu 0, ∀ j < A.shape.getD mu 0, ∀ b < lr.getD mu 0,
        ∑ t ∈ range (lr.getD mu 0), Q'.get [i, j, t] * y t b = P'.get [i, j, b] := by
    intro mu
    by_cases hmu : mu < N
    · have hP := psiOf_shape A.shape A.get R lr lr Y.cores mu
      rw [List.getD_append _ _ _ _ (by omega)] at hP
      obtain ⟨Q', P', y, q⟩ := orthStep_approx hQ hP (positive_fit p1 p2 hl mu (by omega)) (h.step mu (by omega) (by omega))
      exact ⟨Q', P', y, fun _ => q⟩
    · exact ⟨ND.zeros [], ND.zeros [], fun _ _ => 0, fun h => absurd h hmu⟩
  choose Q' P' y hq using key
  refine ⟨fun mu hmu => ⟨Q' mu, (hq mu hmu).1⟩, ?_⟩
  have hrk : ∀ mu < N, (1 :: lr ++ [1]).getD mu 0 = (1 :: lr).getD mu 0 := fun mu hmu => aug_left (by omega)
  have hrk' : ∀ mu < N, (1 :: lr ++ [1]).getD (mu + 1) 0 = lr.getD mu 0 := fun mu hmu => aug_right (by omega)
  obtain ⟨τ, hτ⟩ : ∃ τ : ℕ → ℝ, τ = fun mu => sketchedNorm A R (mu + 1) (lr.getD mu 0)
    * coeffNorm A.shape (mu + 1) (lr.getD mu 0) (B mu) := ⟨_, rfl⟩
  have hτ0 : ∀ mu, 0 ≤ τ mu := fun mu => by rw [hτ]; exact mul_nonneg (Real.sqrt_nonneg _) (Real.sqrt_nonneg _)
  obtain ⟨K, hK⟩ : ∃ K : ℝ, K = N * ε * (1 + ε) ^ N := ⟨_, rfl⟩
  have hK0 : 0 ≤ K := by rw [hK]; positivity
  have key := frame_run hε hd hl hlen hC (by rw [← hN]; exact hlast) (Q' := Q') (by rw [← hN]; exact fun mu hmu => (hq mu hmu).1)
    (fun mu => rangeErrSq A R (mu + 1) (lr.getD mu 0) (B mu)) (fun mu => K * τ mu)
    (fun mu _ => by unfold rangeErrSq; exact sumIdx_nonneg fun _ => sq_nonneg _) (fun cs' hl' hC' hcs' mu hmu => by
      rw [← hN] at hmu hcs'
      have hsh := psiOf_shape A.shape A.get R lr lr Y.cores mu
      rw [List.getD_append _ _ _ _ (by omega)] at hsh
      obtain ⟨q1, q2, q3⟩ := hq mu hmu
      obtain ⟨z, hz⟩ := defect_near (R := R) (f := A.get) hε hC hC' rfl (mu := mu) (by omega) (by omega)
        (by omega : mu < A.shape.length) (fun _ => rfl) (fun k hk => by rw [hcs' k (by omega)]; exact (hq k (by omega)).1)
        (P := psiOf A.shape A.get R lr lr Y.cores mu) (P' := P' mu) (y := y mu)
        (by rw [hrk mu hmu, hrk' mu hmu]; exact hsh)
        (fun a ha j hj b hb => psiOf_get (by omega) (by rw [← hrk mu hmu]; exact ha) hj (by rw [← hrk' mu hmu]; exact hb))
        q2 (fun a ha j hj b hb => by
          rw [hcs' mu hmu, hrk' mu hmu]
          exact q3 a (by rw [← hrk mu hmu]; exact ha) j hj b (by rw [← hrk' mu hmu]; exact hb)) (B mu)
      refine ⟨z, hz.trans (pow_le_pow_left₀ ?_ ?_ 2)⟩
      · have := dL_nonneg ((1 :: lr ++ [1]).getD (mu + 1) 0) (A.shape.drop (mu + 1)) (B mu) zL
        positivity
      · rw [hrk' mu hmu]
        have e2 : √ (sumIdx (A.shape.take (mu + 1)) fun p => ∑ b ∈ range (lr.getD mu 0), pcR A.shape A.get R (mu + 1) p b ^ 2)
              * dL (lr.getD mu 0) (A.shape.drop (mu + 1)) (B mu) zL = τ mu := by
          rw [hτ]
          show _ = sketchedNorm A R (mu + 1) (lr.getD mu 0) * coeffNorm A.shape (mu + 1) (lr.getD mu 0) (B mu)
          congr 1
          unfold dL distL coeffNorm zL
          simp only [sub_zero]
        have e3 : (sumIdx A.shape fun i => (A.get i - projU A.shape A.get R (mu + 1) (lr.getD mu 0) (B mu) i) ^ 2)
            = rangeErrSq A R (mu + 1) (lr.getD mu 0) (B mu) := rfl
        rw [e2, e3]
        have hmuN : ((mu : ℝ) + 1) ≤ N := by exact_mod_cast (show mu + 1 ≤ N by omega)
        have hpw : (1 + ε) ^ mu ≤ (1 + ε) ^ N := pow_le_pow_right₀ (by linarith) (by omega)
        have : ((mu : ℝ) + 1) * ε * (1 + ε) ^ mu ≤ K := by
          rw [hK]
          exact mul_le_mul (mul_le_mul_of_nonneg_right hmuN hε) hpw (by positivity) (by positivity)
        have := mul_le_mul_of_nonneg_right this (hτ0 mu)
        linarith)
  rw [← hN] at key
  have e4 : √ (∑ mu ∈ range N, (K * τ mu) ^ 2) = K * √ (∑ mu ∈ range N, τ mu ^ 2) := by
    simp only [mul_pow]
    rw [← mul_sum, Real.sqrt_mul (by positivity), Real.sqrt_sq hK0]
  rw [e4, hτ, hK] at key
  exact key

end TTS
