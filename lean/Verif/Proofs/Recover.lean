import Verif.Proofs.SketchSum

/-! Recovery of a tensor from its sketches: the algebra, entry by entry. -/

namespace TTS

open Finset

variable {K : Type*} [CommRing K]

/-- Left partial contraction: `G L f sh k a q = ∑ p, L k p a * f (p ++ q)`. -/
def pcL (sh : List ℕ) (f : List ℕ → K) (L : Mats K) (k a : ℕ) (q : List ℕ) : K :=
  sumIdx (sh.take k) fun p => L k p a * f (p ++ q)

/-- Right partial contraction. -/
def pcR (sh : List ℕ) (f : List ℕ → K) (R : Mats K) (k : ℕ) (p : List ℕ) (b : ℕ) : K :=
  sumIdx (sh.drop k) fun q => f (p ++ q) * R k q b

/-- The rows of the unfolding are combinations of the left contractions. -/
def RowSpan (sh : List ℕ) (f : List ℕ → K) (L : Mats K) (k n : ℕ) : Prop :=
  ∃ W : List ℕ → ℕ → K, ∀ p q, InR (sh.take k) p → InR (sh.drop k) q →
    f (p ++ q) = ∑ a ∈ range n, W p a * pcL sh f L k a q

/-- The columns of the unfolding are combinations of the right contractions. -/
def ColSpan (sh : List ℕ) (f : List ℕ → K) (R : Mats K) (k n : ℕ) : Prop :=
  ∃ V : ℕ → List ℕ → K, ∀ p q, InR (sh.take k) p → InR (sh.drop k) q →
    f (p ++ q) = ∑ b ∈ range n, pcR sh f R k p b * V b q

theorem omegaSpec_left (sh : List ℕ) (f : List ℕ → K) (L R : Mats K) (mu a b : ℕ) :
    omegaSpec sh f L R mu a b
      = sumIdx (sh.drop (mu + 1)) fun q => pcL sh f L (mu + 1) a q * R (mu + 1) q b := by
  unfold omegaSpec pcL
  rw [sumIdx_comm]
  exact sumIdx_congr fun q _ => (sumIdx_mul _ _ _).symm

theorem omegaSpec_right (sh : List ℕ) (f : List ℕ → K) (L R : Mats K) (mu a b : ℕ) :
    omegaSpec sh f L R mu a b
      = sumIdx (sh.take (mu + 1)) fun p => L (mu + 1) p a * pcR sh f R (mu + 1) p b := by
  unfold omegaSpec pcR
  refine sumIdx_congr fun p _ => ?_
  rw [mul_sumIdx]
  exact sumIdx_congr fun q _ => mul_assoc _ _ _

theorem psiSpec_left (sh : List ℕ) (f : List ℕ → K) (L R : Mats K) (mu a j b : ℕ) :
    psiSpec sh f L R mu a j b
      = sumIdx (sh.drop (mu + 1)) fun q => pcL sh f L mu a (j :: q) * R (mu + 1) q b := by
  unfold psiSpec pcL
  rw [sumIdx_comm]
  exact sumIdx_congr fun q _ => (sumIdx_mul _ _ _).symm

theorem psiSpec_right (sh : List ℕ) (f : List ℕ → K) (L R : Mats K) (mu a j b : ℕ) :
    psiSpec sh f L R mu a j b
      = sumIdx (sh.take mu) fun p => L mu p a * pcR sh f R (mu + 1) (p ++ [j]) b := by
  unfold psiSpec pcR
  refine sumIdx_congr fun p _ => ?_
  rw [mul_sumIdx]
  exact sumIdx_congr fun q _ => by rw [mul_assoc, List.append_assoc]; rfl

theorem inR_take_snoc {sh p : List ℕ} {mu j : ℕ} (hmu : mu < sh.length) (hp : InR (sh.take mu) p)
    (hj : j < sh.getD mu 0) : InR (sh.take (mu + 1)) (p ++ [j]) := by
  rw [take_succ_getD hmu 0]
  exact hp.append ⟨hj, trivial⟩

theorem sumIdx_take_succ {sh : List ℕ} {mu : ℕ} (hmu : mu < sh.length) (g : List ℕ → K) :
    sumIdx (sh.take (mu + 1)) g
      = sumIdx (sh.take mu) fun p => ∑ j ∈ range (sh.getD mu 0), g (p ++ [j]) := by
  rw [take_succ_getD hmu 0, sumIdx_append]
  rfl

/-- Contracting the column expansion. -/
theorem ColSpan.pcL {sh : List ℕ} {f : List ℕ → K} {L R : Mats K} {k n : ℕ}
    {V : ℕ → List ℕ → K}
    (hV : ∀ p q, InR (sh.take k) p → InR (sh.drop k) q →
      f (p ++ q) = ∑ b ∈ range n, pcR sh f R k p b * V b q) (a : ℕ) (q : List ℕ)
    (hq : InR (sh.drop k) q) :
    pcL sh f L k a q
      = ∑ b ∈ range n, (sumIdx (sh.take k) fun p => L k p a * pcR sh f R k p b) * V b q := by
  unfold TTS.pcL
  rw [sumIdx_congr fun p hp => by rw [hV p q hp hq, mul_sum]]
  rw [sumIdx_sum]
  refine sum_congr rfl fun b _ => ?_
  rw [sumIdx_mul]
  exact sumIdx_congr fun p _ => (mul_assoc _ _ _).symm

/-- With mode `mu` open. -/
theorem ColSpan.pcL_open {sh : List ℕ} {f : List ℕ → K} {L R : Mats K} {mu n : ℕ}
    (hmu : mu < sh.length) {V : ℕ → List ℕ → K}
    (hV : ∀ p q, InR (sh.take (mu + 1)) p → InR (sh.drop (mu + 1)) q →
      f (p ++ q) = ∑ b ∈ range n, pcR sh f R (mu + 1) p b * V b q) (a j : ℕ) (hj : j < sh.getD mu 0)
    (q : List ℕ) (hq : InR (sh.drop (mu + 1)) q) :
    TTS.pcL sh f L mu a (j :: q) = ∑ b ∈ range n, psiSpec sh f L R mu a j b * V b q := by
  unfold TTS.pcL
  have e : ∀ p, InR (sh.take mu) p → L mu p a * f (p ++ j :: q)
      = ∑ b ∈ range n, L mu p a * pcR sh f R (mu + 1) (p ++ [j]) b * V b q := by
    intro p hp
    have := hV (p ++ [j]) q (inR_take_snoc hmu hp hj) hq
    rw [List.append_assoc] at this
    rw [show p ++ j :: q = p ++ ([j] ++ q) from rfl, this, mul_sum]
    exact sum_congr rfl fun b _ => (mul_assoc _ _ _).symm
  rw [sumIdx_congr e, sumIdx_sum]
  refine sum_congr rfl fun b _ => ?_
  rw [psiSpec_right, sumIdx_mul]

/-- Direction `right`: a core solving `C * Omega = Psi` moves the left contraction one mode on. -/
theorem right_core_step {sh : List ℕ} {f : List ℕ → K} {L L' R : Mats K} {mu l1 r1 : ℕ}
    (hmu : mu < sh.length) (hcol : ColSpan sh f R (mu + 1) r1) (C : ℕ → ℕ → ℕ → K) (a j : ℕ)
    (hj : j < sh.getD mu 0)
    (hC : ∀ b < r1, ∑ c ∈ range l1, C a j c * omegaSpec sh f L R mu c b = psiSpec sh f L' R mu a j b)
    (q : List ℕ) (hq : InR (sh.drop (mu + 1)) q) :
    ∑ c ∈ range l1, C a j c * pcL sh f L (mu + 1) c q = pcL sh f L' mu a (j :: q) := by
  obtain ⟨V, hV⟩ := hcol
  rw [ColSpan.pcL_open hmu hV a j hj q hq]
  rw [sum_congr rfl fun c _ => by rw [ColSpan.pcL hV c q hq, mul_sum]]
  rw [sum_comm]
  refine sum_congr rfl fun b hb => ?_
  rw [← hC b (by simpa using hb), sum_mul]
  refine sum_congr rfl fun c _ => ?_
  rw [omegaSpec_right, mul_assoc]

/-- ... and such a core exists. -/
theorem right_core_exists {sh : List ℕ} {f : List ℕ → K} {L L' R : Mats K} {mu l1 : ℕ}
    (hmu : mu < sh.length) (hrow : RowSpan sh f L (mu + 1) l1) (a j : ℕ) (hj : j < sh.getD mu 0) :
    ∃ x : ℕ → K, ∀ b, ∑ c ∈ range l1, x c * omegaSpec sh f L R mu c b = psiSpec sh f L' R mu a j b := by
  obtain ⟨W, hW⟩ := hrow
  refine ⟨fun c => sumIdx (sh.take mu) fun p => L' mu p a * W (p ++ [j]) c, fun b => ?_⟩
  rw [psiSpec_left]
  have e : ∀ q, InR (sh.drop (mu + 1)) q → pcL sh f L' mu a (j :: q) * R (mu + 1) q b
      = ∑ c ∈ range l1, (sumIdx (sh.take mu) fun p => L' mu p a * W (p ++ [j]) c)
          * (pcL sh f L (mu + 1) c q * R (mu + 1) q b) := by
    intro q hq
    have : pcL sh f L' mu a (j :: q) = ∑ c ∈ range l1,
        (sumIdx (sh.take mu) fun p => L' mu p a * W (p ++ [j]) c) * pcL sh f L (mu + 1) c q := by
      have e2 : ∀ p, InR (sh.take mu) p → L' mu p a * f (p ++ j :: q)
          = ∑ c ∈ range l1, L' mu p a * W (p ++ [j]) c * pcL sh f L (mu + 1) c q := by
        intro p hp
        have := hW (p ++ [j]) q (inR_take_snoc hmu hp hj) hq
        rw [List.append_assoc] at this
        rw [show p ++ j :: q = p ++ ([j] ++ q) from rfl, this, mul_sum]
        exact sum_congr rfl fun b _ => (mul_assoc _ _ _).symm
      rw [pcL, sumIdx_congr e2, sumIdx_sum]
      exact sum_congr rfl fun c _ => (sumIdx_mul _ _ _).symm
    rw [this, sum_mul]
    exact sum_congr rfl fun c _ => mul_assoc _ _ _
  rw [sumIdx_congr e, sumIdx_sum]
  refine sum_congr rfl fun c _ => ?_
  rw [omegaSpec_left, mul_sumIdx]

/-- Direction `left`: a core solving `Omega * C = Psi` moves the right contraction one mode on. -/
theorem left_core_step {sh : List ℕ} {f : List ℕ → K} {L R : Mats K} {mu l1 r1 : ℕ}
    (hmu : mu + 1 < sh.length) (hrow : RowSpan sh f L (mu + 1) l1) (C : ℕ → ℕ → ℕ → K) (j b : ℕ)
    (hC : ∀ a < l1, ∑ c ∈ range r1, omegaSpec sh f L R mu a c * C c j b = psiSpec sh f L R (mu + 1) a j b)
    (hj : j < sh.getD (mu + 1) 0)
    (p : List ℕ) (hp : InR (sh.take (mu + 1)) p) :
    ∑ c ∈ range r1, pcR sh f R (mu + 1) p c * C c j b = pcR sh f R (mu + 2) (p ++ [j]) b := by
  obtain ⟨W, hW⟩ := hrow
  have h1 : ∀ c, pcR sh f R (mu + 1) p c = ∑ a ∈ range l1, W p a * omegaSpec sh f L R mu a c := by
    intro c
    unfold pcR
    rw [sumIdx_congr fun q hq => by rw [hW p q hp hq, sum_mul], sumIdx_sum]
    refine sum_congr rfl fun a _ => ?_
    rw [omegaSpec_left, mul_sumIdx]
    exact sumIdx_congr fun q _ => mul_assoc _ _ _
  have h2 : pcR sh f R (mu + 2) (p ++ [j]) b
      = ∑ a ∈ range l1, W p a * psiSpec sh f L R (mu + 1) a j b := by
    unfold pcR
    have : ∀ q, InR (sh.drop (mu + 2)) q → f (p ++ [j] ++ q) * R (mu + 2) q b
        = ∑ a ∈ range l1, W p a * (pcL sh f L (mu + 1) a (j :: q) * R (mu + 2) q b) := by
      intro q hq
      have hq' : InR (sh.drop (mu + 1)) (j :: q) := by
        rw [drop_eq_getD_cons hmu 0]
        exact ⟨hj, hq⟩
      have := hW p (j :: q) hp hq'
      rw [List.append_assoc, show [j] ++ q = j :: q from rfl, this, sum_mul]
      exact sum_congr rfl fun a _ => mul_assoc _ _ _
    rw [sumIdx_congr this, sumIdx_sum]
    refine sum_congr rfl fun a _ => ?_
    rw [psiSpec_left, mul_sumIdx]
  rw [h2, sum_congr rfl fun c _ => by rw [h1 c, sum_mul], sum_comm]
  refine sum_congr rfl fun a ha => ?_
  rw [← hC a (by simpa using ha), mul_sum]
  exact sum_congr rfl fun c _ => mul_assoc _ _ _

theorem left_core_exists {sh : List ℕ} {f : List ℕ → K} {L R : Mats K} {mu r1 : ℕ}
    (hmu : mu + 1 < sh.length) (hcol : ColSpan sh f R (mu + 1) r1) (j b : ℕ) (hj : j < sh.getD (mu + 1) 0) :
    ∃ x : ℕ → K, ∀ a, ∑ c ∈ range r1, omegaSpec sh f L R mu a c * x c = psiSpec sh f L R (mu + 1) a j b := by
  obtain ⟨V, hV⟩ := hcol
  refine ⟨fun c => sumIdx (sh.drop (mu + 2)) fun q => V c (j :: q) * R (mu + 2) q b, fun a => ?_⟩
  rw [psiSpec_left]
  have e : ∀ q, InR (sh.drop (mu + 1 + 1)) q → pcL sh f L (mu + 1) a (j :: q) * R (mu + 1 + 1) q b
      = ∑ c ∈ range r1, omegaSpec sh f L R mu a c * (V c (j :: q) * R (mu + 2) q b) := by
    intro q hq
    have hq' : InR (sh.drop (mu + 1)) (j :: q) := by
      rw [drop_eq_getD_cons hmu 0]
      exact ⟨hj, hq⟩
    rw [ColSpan.pcL hV a _ hq', sum_mul]
    refine sum_congr rfl fun c _ => ?_
    rw [omegaSpec_right, mul_assoc]
  rw [sumIdx_congr e, sumIdx_sum]
  exact sum_congr rfl fun c _ => mul_sumIdx _ _ _

end TTS
