import Verif.Proofs.SketchT

/-!
# Property C47: transposing a sketch

`PinvContract` (in `Spec/Contract.lean`): what is assumed of `scipy.linalg.lstsq`.
-/

namespace TTS.Props

open TTS Finset

section
variable {K : Type*} [CommRing K]

/-- **C47, shapes.** `stt.T` is a sketch of the reversed shape whose left and right ranks are the reversed right and
left ranks, and transposing twice gives back the sketch (data and DRMs). -/
theorem C47_twice (env : Env K) (X : Tensor K) (lrank rrank : RankArg) (kw : SketchKw K)
    (S : Sketched K) (hkw : kw.Good) (hX : X.Valid) (nX : X.NonEmpty) (hd : 2 ≤ X.shape.length)
    (h : streamSketch env X lrank rrank kw = .ok S) :
    S.T.shape = X.shape.reverse ∧ S.T.sketch.HasShape X.shape.reverse S.rightRank.reverse S.leftRank.reverse ∧
    S.T.T = S := by
  obtain ⟨hs, -, -, -, hl, hr⟩ := C38_shapes env X lrank rrank kw S hkw hX nX hd h
  have hT := hs.T hl hr (by omega)
  refine ⟨hT.shape, hT, ?_⟩
  obtain ⟨s, l, r⟩ := S
  show (⟨s.T.T, l.T.T, r.T.T⟩ : Sketched K) = _
  rw [hs.T_T hl hr (by omega), (C29_T l).2.2.2.2.2.2.2, (C29_T r).2.2.2.2.2.2.2]

/-- **C47, conversion.** `stt.T` converts to the transposed tensor train: direction by direction, and with `"auto"`. -/
theorem C47_convert (env : Env K) (hE : PinvContract env) (X : Tensor K) (lrank rrank : RankArg) (kw : SketchKw K)
    (S : Sketched K) (hkw : kw.Good) (hX : X.Valid) (nX : X.NonEmpty) (hd : 2 ≤ X.shape.length)
    (h : streamSketch env X lrank rrank kw = .ok S) :
    (∃ cs, S.cCores env .left = .ok cs ∧ S.T.cCores env .right = .ok (TT.mk cs).T.cores) ∧
    (∃ cs, S.cCores env .right = .ok cs ∧ S.T.cCores env .left = .ok (TT.mk cs).T.cores) ∧
    ∃ Y, S.toTT env = .ok Y ∧ S.T.toTT env = .ok Y.T ∧ Y.T.Valid ∧ Y.T.shape = X.shape.reverse ∧
      ∀ i, Y.T.toNumpy.get i.reverse = Y.toNumpy.get i := by
  obtain ⟨hs, -, -, -, hl, hr⟩ := C38_shapes env X lrank rrank kw S hkw hX nX hd h
  obtain ⟨hS, -⟩ := stream_inv hkw hX nX hd h
  obtain ⟨c1, a1, b1, -⟩ := assembleRight_T hE (by omega) hl hr hs
  obtain ⟨c2, a2, b2⟩ := assembleLeft_T hE (by omega) hl hr hs
  refine ⟨⟨c1, a1, b1⟩, ⟨c2, a2, b2⟩, ?_⟩
  obtain ⟨Y, hY, vY, sY, -⟩ := (C40_cores env hE.lstsq X lrank rrank kw S hkw hX nX hd h).2.2.1
  refine ⟨Y, hY, ?_, Leaf.T_valid (X := .tt Y) vY, (Leaf.T_shape (X := .tt Y) vY).trans (congrArg _ sY),
    Leaf.T_get (X := .tt Y) vY⟩
  have hT := hs.T hl hr (by omega)
  have e1 : ((S.sketch.leftRank.zip S.sketch.rightRank).all fun p => decide (p.1 > p.2)) = true
      ↔ ∀ k < X.shape.length - 1, S.rightRank.getD k 0 < S.leftRank.getD k 0 := by
    rw [hs.left, hs.right, ← zip_swap_all, zip_all hr hl, decide_eq_true_iff]
  have e2 : ((S.T.sketch.leftRank.zip S.T.sketch.rightRank).all fun p => decide (p.1 > p.2)) = true
      ↔ ∀ k < X.shape.length - 1, S.leftRank.getD k 0 < S.rightRank.getD k 0 := by
    rw [show S.T.sketch = S.sketch.T from rfl, hT.left, hT.right, ← zip_swap_all,
      zip_all (n := X.shape.length - 1) (by simpa using hl) (by simpa using hr), decide_eq_true_iff]
    constructor
    · intro hh k hk
      have := hh (X.shape.length - 1 - 1 - k) (by omega)
      rw [rev_getD _ (by omega), rev_getD _ (by omega), hl, hr,
        show X.shape.length - 1 - 1 - (X.shape.length - 1 - 1 - k) = k by omega] at this
      exact this
    · intro hh k hk
      rw [rev_getD _ (by omega), rev_getD _ (by omega), hl, hr]
      exact hh _ (by omega)
  unfold Sketched.toTT Sketched.cCores at hY ⊢
  rw [assemble_auto] at hY ⊢
  rcases hS.ordered with ho | ho
  · have ho' : ∀ k < X.shape.length - 1, S.leftRank.getD k 0 < S.rightRank.getD k 0 := ho
    have hn : ¬ ∀ k < X.shape.length - 1, S.rightRank.getD k 0 < S.leftRank.getD k 0 := fun hh =>
      absurd (ho' 0 (by omega)) (by have := hh 0 (by omega); omega)
    rw [if_neg fun hh => hn (e1.1 hh), a2] at hY
    rw [if_pos (e2.2 ho'), show S.T.sketch = S.sketch.T from rfl, b2]
    injection hY with hY
    subst hY; rfl
  · have ho' : ∀ k < X.shape.length - 1, S.rightRank.getD k 0 < S.leftRank.getD k 0 := ho
    have hn : ¬ ∀ k < X.shape.length - 1, S.leftRank.getD k 0 < S.rightRank.getD k 0 := fun hh =>
      absurd (ho' 0 (by omega)) (by have := hh 0 (by omega); omega)
    rw [if_pos (e1.2 ho'), a1] at hY
    rw [if_neg fun hh => hn (e2.1 hh), show S.T.sketch = S.sketch.T from rfl, b1]
    injection hY with hY
    subst hY; rfl

/-! ### updates -/

theorem T_summands {X Y : Tensor K} (h : X.T = .ok Y) : Y.summands = X.summands.map Leaf.T := by
  cases X with
  | leaf X => injection h with h; subst h; rfl
  | sum X =>
    unfold Tensor.T TSum.T at h
    cases hA : X.tensors with
    | nil => simp only [hA] at h; cases h
    | cons t ts =>
      simp only [hA, List.map_cons, TSum.mk?, Except.map] at h
      injection h with h; subst h
      simp [Tensor.summands, hA]

theorem Leaf.T_distinct {t : Leaf K} (h : t.Distinct) : t.T.Distinct := by
  cases t with
  | sparse X =>
    show ((X.entries.map fun e => (e.1.reverse, e.2)).map Prod.fst).Nodup
    have h' : (X.entries.map Prod.fst).Nodup := h
    have := h'.map List.reverse_injective
    simpa [List.map_map, Function.comp_def] using this
  | _ => trivial

theorem Leaf.T_rightExact {t : Leaf K} (h : t.RightExact) (hv : t.Valid) : t.T.RightExact := by
  have hs := Leaf.T_shape hv
  cases t with
  | dense X => show (Leaf.T (.dense X)).shape.length ≤ 2; rw [hs, List.length_reverse]; exact h
  | tucker X => show (Leaf.T (.tucker X)).shape.length ≤ 2; rw [hs, List.length_reverse]; exact h
  | _ => trivial

theorem supports_T (D : DRMData K) (t : Leaf K) : D.supports t.T = D.supports t := by
  cases D <;> cases t <;> rfl

theorem replicate_of_getD {l : List ℕ} {n z : ℕ} (hl : l.length = n) (h : ∀ k < n, l.getD k 0 = z) :
    l = List.replicate n z := by
  refine list_ext_getD 0 (by simpa using hl) fun k hk => ?_
  rw [h k (by omega), replicate_getD _ _ _ (by omega)]

/-- A full DRM with palindromic shape and ranks: its transpose is the same DRM with the other direction. -/
theorem T_palindrome {D : DRM K} (h : D.WF) (hf : D.toDRMBase.Full) (hr : D.rank.reverse = D.rank) :
    D.T = ⟨{ D.toDRMBase with transpose := !D.transpose }, D.data⟩ := by
  have h0 : D.rankMin = List.replicate (D.shape.length - 1) 0 := replicate_of_getD h.lenMin fun k hk => (hf k hk).1
  have h1 : D.rank = D.rankMax := by
    rw [h.rank_eq, h0]
    refine list_ext_getD 0 (by simp [h.lenMax]) fun k hk => ?_
    have hk : k < D.shape.length - 1 := by simp [h.lenMax] at hk; omega
    rw [getD_eq (by simp [h.lenMax]; omega), getD_eq (by rw [h.lenMax]; exact hk)]
    simp
  have h2 : D.trueRank = D.rankMax := list_ext_getD 0 (by rw [h.lenTrue, h.lenMax]) fun k hk =>
    ((hf k (by rwa [h.lenTrue] at hk)).2).symm
  rw [h1] at hr
  obtain ⟨⟨rank, rankMin, rankMax, trueRank, shape, transpose, seed⟩, data⟩ := D
  simp only at h0 h1 h2 hr
  subst h0 h1 h2
  simp only [DRM.T, DRMBase.T, hr, List.reverse_replicate]

theorem ownShape_palindrome {D : DRM K} (b : Bool) (hp : D.shape.reverse = D.shape) :
    ({ D.toDRMBase with transpose := b } : DRMBase).ownShape = D.ownShape := by
  unfold DRMBase.ownShape
  simp only [hp, ite_self]

theorem WF_palindrome {D : DRM K} (h : D.WF) (b : Bool) (hp : D.shape.reverse = D.shape) :
    (⟨{ D.toDRMBase with transpose := b }, D.data⟩ : DRM K).WF := by
  refine ⟨h.two, h.lenMin, h.lenMax, h.lenTrue, h.rank_eq, h.le_max, h.le_true, ?_⟩
  show match D.data with
    | .dense mats => mats.length = D.shape.length - 1 ∧ ∀ k < D.shape.length - 1,
        (mats.getD k (ND.zeros [])).shape
          = [D.rank.getD k 0, ((({ D.toDRMBase with transpose := b } : DRMBase).ownShape).take (k + 1)).prod]
    | .gauss => True
    | .sign nnz => ∀ k < D.shape.length - 1, nnz.getD k 0 ≤ D.trueRank.getD k 0
    | .tt cores => cores.length = D.shape.length - 1 ∧ ∀ k < D.shape.length - 1,
        (cores.getD k (ND.zeros [])).shape
          = [(1 :: D.trueRank).getD k 0, (({ D.toDRMBase with transpose := b } : DRMBase).ownShape).getD k 0, D.trueRank.getD k 0]
  rw [ownShape_palindrome b hp]
  exact h.data_ok

theorem entry_palindrome (env : Env K) {D : DRM K} (b : Bool) (hp : D.shape.reverse = D.shape) :
    (⟨{ D.toDRMBase with transpose := b }, D.data⟩ : DRM K).entry env = D.entry env := by
  funext k p a
  have := ownShape_palindrome b hp
  unfold DRM.entry
  simp only [this]

/-- **C47, updates.** When the shape of the tensor and the sketch ranks read the same forwards and backwards, `stt.T`
is exactly the streaming sketch of the transposed tensor with its own DRMs, and so can be updated like one:
`stt.T + Y` is the sketch of `X.T + Y`.  Formats as in `C33_streaming`. -/
theorem C47_update (env : Env K) (X : Tensor K) (lrank rrank : RankArg) (kw : SketchKw K)
    (S : Sketched K) (hkw : kw.Good) (hX : X.Valid) (nX : X.NonEmpty) (hd : 2 ≤ X.shape.length) (hdist : X.Distinct)
    (hx : ∀ t ∈ X.summands, t.RightExact) (h : streamSketch env X lrank rrank kw = .ok S)
    (hp : X.shape.reverse = X.shape) (hpl : S.leftRank.reverse = S.leftRank) (hpr : S.rightRank.reverse = S.rightRank) :
    ∃ Xt, X.T = .ok Xt ∧
      streamSketch env Xt (.seq S.T.leftRank) (.seq S.T.rightRank) { left := some S.T.left, right := some S.T.right }
        = .ok S.T ∧
      ∀ Y : Tensor K, Y.Valid → Y.shape = Xt.shape →
        (∀ t ∈ Y.summands, S.left.data.supports t = true ∧ S.right.data.supports t = true) →
        ∃ Z S', Xt.add Y = .ok Z ∧ S.T.add env Y = .ok S' ∧
          streamSketch env Z (.seq S.T.leftRank) (.seq S.T.rightRank)
            { left := some S.T.left, right := some S.T.right } = .ok S' := by
  obtain ⟨Xt, hXt, vt, st, gt, -⟩ := C05 X hX nX
  obtain ⟨hS, -⟩ := stream_inv hkw hX nX hd h
  have hsum := T_summands hXt
  have hrl : S.left.rank.reverse = S.left.rank := hpl
  have hrr : S.right.rank.reverse = S.right.rank := by
    have : S.right.rank.reverse.reverse = S.right.rank.reverse := hpr
    rw [List.reverse_reverse] at this
    exact this.symm
  have pL : S.left.shape.reverse = S.left.shape := by rw [← hS.accL.shape]; exact hp
  have pR : S.right.shape.reverse = S.right.shape := by rw [← hS.accR.shape]; exact hp
  have tL := T_palindrome hS.accL.wf hS.fullL hrl
  have tR := T_palindrome hS.accR.wf hS.fullR hrr
  have wL : S.left.T.WF := by rw [tL]; exact WF_palindrome hS.accL.wf _ pL
  have wR : S.right.T.WF := by rw [tR]; exact WF_palindrome hS.accR.wf _ pR
  have eL : S.left.T.entry env = S.left.entry env := by rw [tL]; exact entry_palindrome env _ pL
  have eR : S.right.T.entry env = S.right.entry env := by rw [tR]; exact entry_palindrome env _ pR
  have fL : S.left.T.toDRMBase.Full := by rw [tL]; exact hS.fullL
  have fR : S.right.T.toDRMBase.Full := by rw [tR]; exact hS.fullR
  have shL : S.left.T.shape = S.left.shape := rfl
  have shR : S.right.T.shape = S.right.shape := rfl
  have hsupp : ∀ t ∈ X.summands, S.left.data.supports t = true ∧ S.right.data.supports t = true := fun t ht =>
    ⟨(hS.accL.each t ht).supports, (hS.accR.each t ht).supports⟩
  have aL : S.left.T.AcceptsT Xt := acceptsT_of wL fL vt (by rw [st, hp, shL, hS.accL.shape]) (by
    intro t ht
    rw [hsum] at ht
    obtain ⟨u, hu, rfl⟩ := List.mem_map.1 ht
    exact (supports_T _ u).trans (hsupp u hu).1)
  have aR : S.right.T.AcceptsT Xt := acceptsT_of wR fR vt (by rw [st, hp, shR, hS.accR.shape]) (by
    intro t ht
    rw [hsum] at ht
    obtain ⟨u, hu, rfl⟩ := List.mem_map.1 ht
    exact (supports_T _ u).trans (hsupp u hu).2)
  have hdt : Xt.Distinct := by
    cases X with
    | leaf X => injection hXt with hXt; subst hXt; exact Leaf.T_distinct hdist
    | sum X =>
      have : ∀ t ∈ Xt.summands, t.Distinct := by
        intro t ht
        rw [hsum] at ht
        obtain ⟨u, hu, rfl⟩ := List.mem_map.1 ht
        exact Leaf.T_distinct (hdist u hu)
      cases Xt with
      | leaf Y => exact this Y (by simp [Tensor.summands])
      | sum Y => exact this
  have hxt : ∀ t ∈ Xt.summands, t.RightExact := by
    intro t ht
    rw [hsum] at ht
    obtain ⟨u, hu, rfl⟩ := List.mem_map.1 ht
    exact Leaf.T_rightExact (hx u hu) (Tensor.valid_summands hX u hu).1
  have dL : S.left.T.transpose = true := by show (!S.left.transpose) = true; rw [hS.dirL]; rfl
  have dR : S.right.T.transpose = false := by show (!S.right.transpose) = false; rw [hS.dirR]; rfl
  have hsk := streaming_spec (env := env) vt aR aL dR dL hdt hxt
  have hsk0 := C33_streaming env X lrank rrank kw S hkw hX nX hd hdist hx h
  obtain ⟨-, -, -, -, hl, hr⟩ := C38_shapes env X lrank rrank kw S hkw hX nX hd h
  have e0 : S.T.sketch = sketchOf Xt.shape Xt.toNumpy.get (S.right.T.leftMats env) (S.left.T.rightMats env)
      S.right.T.rank S.left.T.rank.reverse := by
    show S.sketch.T = _
    rw [hsk0, sketchOf_T (f' := Xt.toNumpy.get) (L' := S.right.T.leftMats env) (R' := S.left.T.rightMats env) (by omega) hl hr
      (fun i _ => gt i), st]
    · rw [hpl, hpr]
      congr 1
      show S.leftRank = S.left.rank.reverse.reverse
      rw [List.reverse_reverse]; rfl
    · intro k p a hk hpin
      unfold DRM.leftMats DRM.rightMats
      rw [← hS.accR.shape, eR]
      by_cases h0 : k = 0
      · rw [if_pos h0, if_pos (by omega)]
      · rw [if_neg h0, if_neg (by omega), show X.shape.length - 1 - (X.shape.length - k) = k - 1 by omega]
    · intro k p a hk hpin
      unfold DRM.leftMats DRM.rightMats
      rw [shL, ← hS.accL.shape, eL, List.reverse_reverse]
      by_cases h0 : k = X.shape.length
      · rw [if_pos h0, if_pos (by omega)]
      · rw [if_neg h0, if_neg (by omega), show X.shape.length - 1 - k = X.shape.length - k - 1 by omega]
  have hord : RanksOrdered (Xt.shape.length - 1) S.right.T.rank S.left.T.rank.reverse := by
    have e3 : S.right.T.rank = S.right.rank.reverse := rfl
    have e4 : S.left.T.rank.reverse = S.left.rank := List.reverse_reverse _
    rw [e3, e4, st, List.length_reverse]
    exact hS.ordered.symm
  have e1 := stream_supplied (env := env) none none none aR aL dR dL hord
  have e2 := streaming_sum (env := env) aR aL dR dL
  rw [hsk] at e2
  injection e2 with e2
  rw [← e2, ← e0] at e1
  have hmain : streamSketch env Xt (.seq S.T.leftRank) (.seq S.T.rightRank)
      { left := some S.T.left, right := some S.T.right } = .ok S.T := e1
  refine ⟨Xt, hXt, hmain, fun Y vY sY hsY => ?_⟩
  have hStr : Streamed env Xt S.T := ⟨aR, aL, fR, fL, dR, dL, hord, by rw [e0]; exact e2⟩
  obtain ⟨nt, -⟩ : Xt.NonEmpty ∧ True := ⟨by
    have hn := Tensor.nonEmpty_summands nX
    cases Xt with
    | leaf _ => trivial
    | sum Y => show Y.tensors ≠ []; have : Y.tensors = _ := hsum; rw [this]; simpa using hn, trivial⟩
  obtain ⟨Z, S', h1, h2, h3, h4, h5, h6, h7, h8⟩ := streamed_add hStr vt nt vY sY fun t ht => ⟨(hsY t ht).2, (hsY t ht).1⟩
  refine ⟨Z, S', h1, h5, ?_⟩
  have := streamed_again h8
  unfold Sketched.leftRank Sketched.rightRank at this ⊢
  rwa [h6, h7] at this

/-- **C47, where it stops.** The DRMs of `stt.T` keep the shape of the original tensor: unless that shape reads the
same backwards, adding a tensor of the transposed shape is an error (never a wrong sketch). -/
theorem C47_update_rejected (env : Env K) (X Y : Tensor K) (lrank rrank : RankArg) (kw : SketchKw K)
    (S : Sketched K) (hkw : kw.Good) (hX : X.Valid) (nX : X.NonEmpty) (hd : 2 ≤ X.shape.length)
    (h : streamSketch env X lrank rrank kw = .ok S) (hp : X.shape.reverse ≠ X.shape)
    (vY : Y.Valid) (nY : Y.NonEmpty) (sY : Y.shape = X.shape.reverse) (S' : Sketched K) : S.T.add env Y ≠ .ok S' := by
  obtain ⟨hS, -⟩ := stream_inv hkw hX nX hd h
  intro hc
  unfold Sketched.add at hc
  obtain ⟨o, ho, -⟩ := andThen_ok hc
  unfold streamSketch at ho
  obtain ⟨b1, -, ho⟩ := andThen_ok ho
  obtain ⟨b2, -, ho⟩ := andThen_ok ho
  by_cases hb : b1 = false ∧ b2 = false
  · rw [if_pos hb] at ho; cases ho
  rw [if_neg hb] at ho
  obtain ⟨l, hl, ho⟩ := andThen_ok ho
  obtain ⟨r, hr, ho⟩ := andThen_ok ho
  obtain ⟨s, hs, -⟩ := andThen_ok ho
  have el : l = S.T.left := by
    unfold leftDRM at hl
    simp only at hl
    split at hl
    · injection hl with hl; exact hl.symm
    · cases hl
  unfold generalSketch at hs
  obtain ⟨lc, hlc, -⟩ := andThen_ok hs
  obtain ⟨t, ht⟩ := List.exists_mem_of_ne_nil _ (Tensor.nonEmpty_summands nY)
  have h1 := contr_ok_shape hlc t ht
  rw [(Tensor.valid_summands vY t ht).2, sY, el] at h1
  exact hp (h1.trans (show S.T.left.shape = X.shape from hS.accR.shape.symm))

/-- **C47, what is reported.** `stt.T.left_rank` and `stt.T.right_rank` are the right and left ranks in the original
order, while the arrays of `stt.T` have the reversed ones (`C47_twice`). -/
theorem C47_reported (S : Sketched K) : S.T.leftRank = S.rightRank ∧ S.T.rightRank = S.leftRank :=
  ⟨rfl, List.reverse_reverse _⟩

end

/-! The tensor `x7` of shape `(2, 3, 2)` and ranks `(1, 1)`, `(2, 2)`: all hypotheses hold. -/

noncomputable def env7p : Env ℚ := { env7 with lstsq := pinvChoice }

theorem env7p_pinv : PinvContract env7p := pinvChoice_contract rfl

theorem s7p : ∃ S, streamSketch env7p (.leaf (.sparse x7)) (.int 1) (.int 2) { seed := some 3 } = .ok S ∧
    S.leftRank = [1, 1] ∧ S.rightRank = [2, 2] := ⟨_, rfl, rfl, rfl⟩

theorem x7_valid : (Tensor.leaf (.sparse x7)).Valid := by
  intro e he
  simp only [x7, List.mem_cons, List.not_mem_nil, or_false] at he
  subst he; simp [x7]

example : ∃ S Y, streamSketch env7p (.leaf (.sparse x7)) (.int 1) (.int 2) { seed := some 3 } = .ok S ∧
    S.toTT env7p = .ok Y ∧ S.T.toTT env7p = .ok Y.T := by
  obtain ⟨S, h, -⟩ := s7p
  obtain ⟨-, -, Y, h1, h2, -⟩ := C47_convert env7p env7p_pinv _ _ _ _ S (SketchKw.good_none _ _ _) x7_valid trivial
    (by decide) h
  exact ⟨S, Y, h, h1, h2⟩

example : ∃ S S' Z, streamSketch env7p (.leaf (.sparse x7)) (.int 1) (.int 2) { seed := some 3 } = .ok S ∧
    (Tensor.leaf (.sparse x7.T)).add (.leaf (.sparse x7)) = .ok Z ∧ S.T.add env7p (.leaf (.sparse x7)) = .ok S' ∧
    streamSketch env7p Z (.seq S.T.leftRank) (.seq S.T.rightRank) { left := some S.T.left, right := some S.T.right }
      = .ok S' := by
  obtain ⟨S, h, hl, hr⟩ := s7p
  have hk : S.left.data.supports (.sparse x7) = true ∧ S.right.data.supports (.sparse x7) = true := by
    obtain ⟨hS, -⟩ := stream_inv (SketchKw.good_none _ _ _) x7_valid trivial (by decide) h
    exact ⟨(hS.accL.each _ (by simp [Tensor.summands])).supports, (hS.accR.each _ (by simp [Tensor.summands])).supports⟩
  obtain ⟨Xt, h1, -, h3⟩ := C47_update env7p _ _ _ _ S (SketchKw.good_none _ _ _) x7_valid trivial (by decide)
    (by simp [Tensor.Distinct, Leaf.Distinct, Sparse.Distinct, x7])
    (by intro t ht; simp only [Tensor.summands, List.mem_cons, List.not_mem_nil, or_false] at ht; subst ht; trivial)
    h rfl (by rw [hl]; rfl) (by rw [hr]; rfl)
  injection h1 with h1
  subst h1
  obtain ⟨Z, S', h4, h5, h6⟩ := h3 (.leaf (.sparse x7)) x7_valid rfl (by
    intro t ht; simp only [Tensor.summands, List.mem_cons, List.not_mem_nil, or_false] at ht; subst ht; exact hk)
  exact ⟨S, S', Z, h, h4, h5, h6⟩

/-- A sketch whose transpose cannot be updated. -/
example : ∃ S, streamSketch env7p (.leaf (.sparse ⟨[2, 3], [([1, 2], 3)]⟩)) (.int 1) (.int 2) { seed := some 3 } = .ok S ∧
    [2, 3].reverse ≠ [2, 3] := ⟨_, rfl, by decide⟩

end TTS.Props
