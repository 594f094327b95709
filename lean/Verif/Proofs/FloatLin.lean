import Verif.Spec.FloatLin
import Verif.Proofs.FloatPsi
import Verif.Proofs.MPO
import Verif.Proofs.TensorAdd
import Verif.Proofs.TensorOps
import Verif.Proofs.TensorTT

/-! Rounding errors of programs with tensor trains. -/

namespace TTS
open Finset ND

/-- Cores that approximate exact ones, with the given numbers of roundings. -/
def CN (u : ℝ) : List ℕ → List (ND ℝ) → List (ND ℝ) → List (ND ℝ) → Prop
  | [], [], [], [] => True
  | n :: ns, C :: Cs, A :: As, M :: Ms => NDNear ((1 + u) ^ n) C A M ∧ CN u ns Cs As Ms
  | _, _, _, _ => False

namespace CN
variable {u : ℝ}

theorem lengths : ∀ {ns : List ℕ} {Cs As Ms : List (ND ℝ)}, CN u ns Cs As Ms →
    Cs.length = ns.length ∧ As.length = ns.length ∧ Ms.length = ns.length
  | [], [], [], [], _ => ⟨rfl, rfl, rfl⟩
  | n :: ns, C :: Cs, A :: As, M :: Ms, h => by
    obtain ⟨h1, h2, h3⟩ := lengths h.2
    simp [h1, h2, h3]

theorem append : ∀ {ns ms : List ℕ} {Cs As Ms Cs' As' Ms' : List (ND ℝ)}, CN u ns Cs As Ms → CN u ms Cs' As' Ms' →
    CN u (ns ++ ms) (Cs ++ Cs') (As ++ As') (Ms ++ Ms')
  | [], _, [], [], [], _, _, _, _, k => k
  | _ :: _, _, _ :: _, _ :: _, _ :: _, _, _, _, h, k => ⟨h.1, append h.2 k⟩

theorem dropLast : ∀ {ns : List ℕ} {Cs As Ms : List (ND ℝ)}, CN u ns Cs As Ms →
    CN u ns.dropLast Cs.dropLast As.dropLast Ms.dropLast
  | [], [], [], [], _ => trivial
  | [_], [_], [_], [_], _ => trivial
  | _ :: n :: ns, _ :: C :: Cs, _ :: A :: As, _ :: M :: Ms, h => ⟨h.1, dropLast (ns := n :: ns) h.2⟩
  | [_], _ :: _ :: _, _, _, h => by
    have := h.lengths; simp at this
  | [_], [_], _ :: _ :: _, _, h => by
    have := h.lengths; simp at this
  | [_], [_], [_], _ :: _ :: _, h => by
    have := h.lengths; simp at this
  | _ :: _ :: _, [_], _, _, h => by
    have := h.lengths; simp at this
  | _ :: _ :: _, _ :: _ :: _, [_], _, h => by
    have := h.lengths; simp at this
  | _ :: _ :: _, _ :: _ :: _, _ :: _ :: _, [_], h => by
    have := h.lengths; simp at this

theorem last : ∀ {ns : List ℕ} {Cs As Ms : List (ND ℝ)}, CN u ns Cs As Ms → ns ≠ [] → ∀ z : ND ℝ,
    NDNear ((1 + u) ^ ns.getLastD 0) (Cs.getLastD z) (As.getLastD z) (Ms.getLastD z)
  | [_], [_], [_], [_], h, _, _ => h.1
  | _ :: n :: ns, _ :: C :: Cs, _ :: A :: As, _ :: M :: Ms, h, _, z => by
    have := last (ns := n :: ns) h.2 (by simp) z
    simpa using this
  | [], _, _, _, _, hne, _ => absurd rfl hne
  | [_], _ :: _ :: _, _, _, h, _, _ => by
    have := h.lengths; simp at this
  | [_], [_], _ :: _ :: _, _, h, _, _ => by
    have := h.lengths; simp at this
  | [_], [_], [_], _ :: _ :: _, h, _, _ => by
    have := h.lengths; simp at this
  | _ :: _ :: _, [_], _, _, h, _, _ => by
    have := h.lengths; simp at this
  | _ :: _ :: _, _ :: _ :: _, [_], _, h, _, _ => by
    have := h.lengths; simp at this
  | _ :: _ :: _, _ :: _ :: _, _ :: _ :: _, [_], h, _, _ => by
    have := h.lengths; simp at this

theorem tail : ∀ {ns : List ℕ} {Cs As Ms : List (ND ℝ)}, CN u ns Cs As Ms → CN u ns.tail Cs.tail As.tail Ms.tail
  | [], [], [], [], _ => trivial
  | _ :: _, _ :: _, _ :: _, _ :: _, h => h.2

theorem head : ∀ {ns : List ℕ} {Cs As Ms : List (ND ℝ)}, CN u ns Cs As Ms → ns ≠ [] → ∀ z : ND ℝ,
    NDNear ((1 + u) ^ ns.headD 0) (Cs.headD z) (As.headD z) (Ms.headD z)
  | [], [], [], [], _, hne, _ => absurd rfl hne
  | _ :: _, _ :: _, _ :: _, _ :: _, h, _, _ => h.1

theorem max_left (hu : 0 ≤ u) {n m : ℕ} {C A M : ND ℝ} (h : NDNear ((1 + u) ^ n) C A M) : NDNear ((1 + u) ^ max n m) C A M :=
  h.mono (pow_le_pow_right₀ (by linarith) (le_max_left _ _))

theorem max_right (hu : 0 ≤ u) {n m : ℕ} {C A M : ND ℝ} (h : NDNear ((1 + u) ^ m) C A M) : NDNear ((1 + u) ^ max n m) C A M :=
  h.mono (pow_le_pow_right₀ (by linarith) (le_max_right _ _))

theorem map2 (hu : 0 ≤ u) {f : ND ℝ → ND ℝ → ND ℝ} (hf : ∀ {p : ℝ} {C A M D B N : ND ℝ}, 1 ≤ p → NDNear p C A M → NDNear p D B N →
    NDNear p (f C D) (f A B) (f M N)) : ∀ {ns ms : List ℕ} {Cs As Ms Ds Bs Ns : List (ND ℝ)}, CN u ns Cs As Ms → CN u ms Ds Bs Ns →
    CN u (List.zipWith max ns ms) (List.zipWith f Cs Ds) (List.zipWith f As Bs) (List.zipWith f Ms Ns)
  | [], [], [], [], [], [], [], [], _, _ => trivial
  | [], _ :: _, [], [], [], _ :: _, _ :: _, _ :: _, _, _ => trivial
  | _ :: _, [], _ :: _, _ :: _, _ :: _, [], [], [], _, _ => trivial
  | _ :: _, _ :: _, _ :: _, _ :: _, _ :: _, _ :: _, _ :: _, _ :: _, h, k =>
    ⟨hf (one_le_pow_u hu _) (max_left hu h.1) (max_right hu k.1), map2 hu hf h.2 k.2⟩

/-- The values of approximate tensor trains. -/
theorem ttVal_near (hu : 0 ≤ u) : ∀ {ns : List ℕ} {Cs As Ms : List (ND ℝ)}, CN u ns Cs As Ms → ∀ (i : List ℕ) (a b : ℕ),
    Near ((1 + u) ^ ns.sum) (ttVal Cs i a b) (ttVal As i a b) (ttVal Ms i a b)
  | [], [], [], [], _, i, a, b => by
    cases i with
    | nil =>
      simp only [List.sum_nil, pow_zero, ttVal]
      refine Near.of_eq ?_
      split_ifs <;> simp
    | cons i is => simpa [ttVal] using Near.of_eq (x := 0) (a := 0) (by simp)
  | n :: ns, C :: Cs, A :: As, M :: Ms, h, i, a, b => by
    cases i with
    | nil =>
      simp only [ttVal]
      exact (Near.of_eq (x := 0) (a := 0) (by simp)).mono (one_le_pow_u hu _)
    | cons i is =>
      simp only [ttVal]
      rw [h.1.dim_eq 2, h.1.dim_eq' 2, List.sum_cons, pow_add]
      exact Near.sum _ fun t _ => Near.mul (one_le_pow_u hu _) (one_le_pow_u hu _) (h.1.2.2 _) (ttVal_near hu h.2 is t b)

theorem abs : ∀ {ns : List ℕ} {Cs As Ms : List (ND ℝ)}, CN u ns Cs As Ms →
    CN u ns (Cs.map ND.abs) (As.map ND.abs) Ms
  | [], [], [], [], _ => trivial
  | _ :: _, _ :: _, _ :: _, _ :: _, h => by
    refine ⟨⟨h.1.1, h.1.2.1, fun i => ?_⟩, abs h.2⟩
    rw [ND.abs_get, ND.abs_get]
    exact ⟨(abs_abs_sub_abs_le _ _).trans (h.1.2.2 i).1, by rw [abs_abs]; exact (h.1.2.2 i).2⟩

theorem rfl' (Cs : List (ND ℝ)) : CN u (Cs.map fun _ => 0) Cs Cs (Cs.map ND.abs) := by
  induction Cs with
  | nil => trivial
  | cons C Cs ih => exact ⟨by simpa using NDNear.rfl' C, ih⟩

theorem chain : ∀ {ns : List ℕ} {Cs As Ms : List (ND ℝ)} {r s : ℕ}, CN u ns Cs As Ms → TTChain r As s → TTChain r Cs s
  | [], [], [], [], _, _, _, h => h
  | _ :: _, _ :: _, _ :: _, _ :: _, _, _, h, ⟨n, t, h1, h2⟩ => ⟨n, t, h.1.1.trans h1, chain h.2 h2⟩

theorem dims (k : ℕ) : ∀ {ns : List ℕ} {Cs As Ms : List (ND ℝ)}, CN u ns Cs As Ms →
    Cs.map (fun C => C.dim k) = As.map fun C => C.dim k
  | [], [], [], [], _ => rfl
  | _ :: _, _ :: _, _ :: _, _ :: _, h => by
    rw [List.map_cons, List.map_cons, h.1.dim_eq, dims k h.2]

end CN

/-! ### The operations -/

theorem concat2_near {p : ℝ} (hp : 1 ≤ p) {C A M D B N : ND ℝ} (h : NDNear p C A M) (k : NDNear p D B N) :
    NDNear p (ND.concat2 C D) (ND.concat2 A B) (ND.concat2 M N) := by
  unfold ND.concat2
  simp only [h.dim_eq, h.dim_eq', k.dim_eq, k.dim_eq']
  refine ⟨rfl, rfl, fun i => ?_⟩
  simp only [ofFn_get']
  split_ifs
  · exact h.2.2 _
  · exact k.2.2 _
  · exact (Near.of_eq (by simp)).mono hp

theorem concat0_near {p : ℝ} (hp : 1 ≤ p) {C A M D B N : ND ℝ} (h : NDNear p C A M) (k : NDNear p D B N) :
    NDNear p (ND.concat0 C D) (ND.concat0 A B) (ND.concat0 M N) := by
  unfold ND.concat0
  simp only [h.dim_eq, h.dim_eq', k.dim_eq, k.dim_eq']
  refine ⟨rfl, rfl, fun i => ?_⟩
  simp only [ofFn_get']
  split_ifs
  · exact h.2.2 _
  · exact k.2.2 _
  · exact (Near.of_eq (by simp)).mono hp

theorem zipWith_max_ends {ns ms : List ℕ} (h : ns.length = ms.length) (h2 : 2 ≤ ns.length) :
    List.zipWith max ns ms = max (ns.headD 0) (ms.headD 0) :: List.zipWith max ns.tail.dropLast ms.tail.dropLast ++
      [max (ns.getLastD 0) (ms.getLastD 0)] := by
  match ns, ms, h, h2 with
  | n :: ns, m :: ms, h, h2 =>
    obtain rfl | ⟨ns, a, rfl⟩ := List.eq_nil_or_concat ns
    · simp at h2
    obtain rfl | ⟨ms, b, rfl⟩ := List.eq_nil_or_concat ms
    · simp at h
    have e : ns.length = ms.length := by simpa using h
    have h1 : ∀ (x y : ℕ) (l : List ℕ), (x :: (l ++ [y])).getLastD 0 = y := fun x y l => by
      rw [← List.cons_append, List.getLastD_concat]
    simp only [List.concat_eq_append, List.zipWith_cons_cons, List.zipWith_append e, List.headD_cons, List.tail_cons,
      List.dropLast_concat, h1, List.zipWith_nil_left, List.cons_append]

theorem CN.add {u : ℝ} (hu : 0 ≤ u) {ns ms : List ℕ} {X A M Y B N : TT ℝ} (h : CN u ns X.cores A.cores M.cores)
    (k : CN u ms Y.cores B.cores N.cores) (hl : ns.length = ms.length) (h2 : 2 ≤ ns.length) :
    CN u (List.zipWith max ns ms) (X.add Y).cores (A.add B).cores (M.add N).cores := by
  have hn : ns ≠ [] := by rintro rfl; simp at h2
  have hm : ms ≠ [] := by rintro rfl; rw [hl] at h2; simp at h2
  rw [zipWith_max_ends hl h2]
  refine ⟨concat2_near (one_le_pow_u hu _) (max_left hu (h.head hn _)) (max_right hu (k.head hm _)), ?_⟩
  refine CN.append ?_ ⟨concat0_near (one_le_pow_u hu _) (max_left hu (h.last hn _)) (max_right hu (k.last hm _)), trivial⟩
  refine CN.map2 hu (fun {p C A M D B N} hp h k => ?_) h.tail.dropLast k.tail.dropLast
  simp only [h.dim_eq, h.dim_eq', k.dim_eq, k.dim_eq']
  exact concat0_near hp (concat2_near hp h (NDNear.zeros _ hp)) (concat2_near hp (NDNear.zeros _ hp) k)

theorem smul_near {u : ℝ} (hu : 0 ≤ u) {n : ℕ} {C A M D : ND ℝ} {c : ℝ} (h : NDNear ((1 + u) ^ n) C A M) (hD : FlSmul u C c D) :
    NDNear ((1 + u) ^ (n + 1)) D (A.smul c) (M.smul |c|) := by
  have hE : NDNear ((1 + u) ^ n) (C.smul c) (A.smul c) (M.smul |c|) := by
    refine ⟨h.1, h.2.1, fun i => ?_⟩
    rw [ND.smul_get, ND.smul_get, ND.smul_get]
    have := Near.mul (one_le_pow_u hu n) le_rfl (h.2.2 i) (Near.rfl' c)
    simpa using this
  have := NDNear.op hu hD hE fun i => by
    rw [ND.smul_get, ND.smul_get, ND.abs_get, ← mul_assoc]
    exact mul_le_mul_of_nonneg_right (h.2.2 i).abs_le (abs_nonneg _)
  simpa [pow_succ, mul_comm] using this

theorem CN.mul {u : ℝ} (hu : 0 ≤ u) {ns : List ℕ} {X A M Y : TT ℝ} {c : ℝ} (h : CN u ns X.cores A.cores M.cores) (hn : ns ≠ [])
    (hY : X.FlMul u c Y) :
    CN u (ns.dropLast ++ [ns.getLastD 0 + 1]) Y.cores (A.mul c).cores (M.mul |c|).cores := by
  obtain ⟨D, hD, rfl⟩ := hY
  have l := h.lengths
  have hA : A.cores ≠ [] := by intro e; rw [e] at l; exact hn (List.length_eq_zero_iff.1 l.2.1.symm)
  have hM : M.cores ≠ [] := by intro e; rw [e] at l; exact hn (List.length_eq_zero_iff.1 l.2.2.symm)
  rw [TT.mul_cores hA, TT.mul_cores hM]
  refine CN.append h.dropLast ⟨?_, trivial⟩
  have := smul_near hu (h.last hn _) hD
  have e : ∀ {l : List (ND ℝ)} (hl : l ≠ []) (z : ND ℝ), l.getLastD z = l.getLast hl := fun hl z => by
    rw [List.getLastD_eq_getLast?, List.getLast?_eq_getLast_of_ne_nil hl, Option.getD_some]
  rwa [e hA, e hM] at this

theorem callCore_near {u : ℝ} (hu : 0 ≤ u) {n r s m t a b k : ℕ} {T C A M D : ND ℝ} (h : NDNear ((1 + u) ^ n) C A M)
    (hT : T.shape = [r, s, m, t]) (hA : A.shape = [a, k, b]) (hD : MPO.FlCallCore u T C D) :
    NDNear ((1 + u) ^ (s + n)) D (MPO.callCore T A) (MPO.callCore T.abs M) := by
  obtain ⟨MC, h1, rfl⟩ := hD
  have h2 := NDNear.einsum2 hu le_rfl (one_le_pow_u hu n) (NDNear.rfl' T) h _ _ _ h1
  have e : einsumTerms [([Lb.i, .j, .k, .l], T), ([Lb.a, .j, .b], A)] [.i, .a, .k, .l, .b] = s := by
    simp [einsumTerms, lbSummed, lbDim, lbGet?, hT, hA, -List.getD_eq_getElem?_getD]
  rw [e, one_mul, ← pow_add] at h2
  have h3 := NDNear.reshape h2 [MC.dim 0 * MC.dim 1, MC.dim 2, MC.dim 3 * MC.dim 4]
  unfold MPO.callCore ND.es_ijkl_ajb_iaklb
  simp only [← h2.dim_eq, h2.dim_eq']
  exact h3

theorem CN.call {u : ℝ} (hu : 0 ≤ u) : ∀ {Ts : List (ND ℝ)} {ns : List ℕ} {Cs As Ms Ds : List (ND ℝ)} {r s a b : ℕ},
    CN u ns Cs As Ms → MPOChain r Ts s → TTChain a As b →
    List.Forall₂ (fun (p : ND ℝ × ND ℝ) D => MPO.FlCallCore u p.1 p.2 D) (Ts.zip Cs) Ds →
    CN u (List.zipWith (· + ·) (Ts.map fun T => T.dim 1) ns) Ds (List.zipWith MPO.callCore Ts As)
      (List.zipWith MPO.callCore (Ts.map ND.abs) Ms)
  | [], ns, Cs, As, Ms, Ds, _, _, _, _, h, _, _, hD => by
    cases hD
    simp [CN]
  | T :: Ts, [], [], [], [], Ds, _, _, _, _, h, _, _, hD => by
    cases hD
    simp [CN]
  | T :: Ts, n :: ns, C :: Cs, A :: As, M :: Ms, Ds, _, _, _, _, h, ⟨n1, m1, t1, hT, hTs⟩, ⟨n2, t2, hA, hAs⟩, hD => by
    rw [List.zip_cons_cons] at hD
    cases hD with
    | cons h1 h2 =>
      refine ⟨?_, CN.call hu h.2 hTs hAs h2⟩
      have := callCore_near hu h.1 hT hA h1
      show NDNear ((1 + u) ^ (T.dim 1 + n)) _ _ _
      rwa [(dim_of_shape4 hT).2.1]

end TTS
