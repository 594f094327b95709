import Verif.Proofs.Blocked
import Verif.Proofs.Stream
import Verif.Props.Sketch

/-!
# C44, C45: blocked sketches and rank increases
-/

namespace TTS.Props

open TTS

variable {K : Type*} [CommRing K]

/-! ## C44 -/

/-- Everything about a slice of a freshly made DRM. -/
theorem slice_data (env : Env K) (kind : DRMKind) (rank : RankArg) (shape : List ℕ) (t : Bool)
    (seed : Option ℕ) (hd : 2 ≤ shape.length)
    (hr : (ranksOf rank shape.length).length = shape.length - 1)
    (hs : SeedOk kind seed) (D : DRM K) (hD : DRM.new env kind rank shape t seed = .ok D)
    (a b : List ℕ) (ha : a.length = shape.length - 1) (hb : b.length = shape.length - 1)
    (hab : ∀ k < shape.length - 1, a.getD k 0 ≤ b.getD k 0 ∧
      b.getD k 0 ≤ (ranksOf rank shape.length).getD k 0) :
    ∃ D' : DRM K, D.slice env a b = .ok D' ∧ D'.WF ∧ D'.shape = shape ∧ D'.transpose = t ∧
      D'.rank.length = shape.length - 1 ∧
      (∀ k < shape.length - 1, (rev? t D'.rank).getD k 0 = b.getD k 0 - a.getD k 0) ∧
      (∀ X : Leaf K, X.Valid → X.shape = shape → D.data.supports X = true → ¬ NeedsFull D X →
        SliceOn env X D D' a b) := by
  obtain ⟨D0, e0, w1, w2, w3, w4, w5, w6, w7⟩ := C29_new (K := K) env kind rank shape t seed hd hr hs.lt
  rw [hD] at e0
  injection e0 with e0
  subst e0
  have htr : (if D.transpose then D.trueRank.reverse else D.trueRank) = ranksOf rank shape.length := by
    have e := new_full (K := K) env kind rank shape t seed hd hr hs.lt
    rw [e] at hD
    injection hD with hD
    subst hD
    exact rev?_rev? t _
  obtain ⟨D', s1, s2, s3, s4, s5, s6, s7, s8, s9⟩ := C29_slice env w1 w6 a b (by rw [w3, ha]) (by rw [w3, hb])
    (by rw [w3, htr]; exact hab)
  rw [w3] at s8 s9
  refine ⟨D', s1, s2, s3.trans w3, s4.trans w4, s8, ?_, fun X hX hsh hsup hnf => ?_⟩
  · intro k hk
    have := s9 k hk
    rw [w4] at this
    exact this
  · obtain ⟨D2, L, L', q1, q2, q3, q4, q5, q6⟩ := C30_slice env kind rank shape t seed hd hr hs D hD a b ha hb hab
      X hX hsh hsup hnf
    rw [s1] at q1
    injection q1 with q1
    subst q1
    have hsup' : D'.data.supports X = true := by rw [← hsup]; exact supports_kind _ _ s5 X
    have hnf' : ¬ NeedsFull D' X := fun h => hnf ((needsFull_kind s5 X).1 h)
    refine ⟨⟨w1, hX, hsh.trans w3.symm, hsup, fun h => absurd h hnf⟩,
      ⟨s2, hX, hsh.trans (s3.trans w3).symm, hsup', fun h => absurd h hnf'⟩, s4, ?_, ?_, ?_, ?_⟩
    · rw [hsh]; intro k hk
      exact s9 k hk
    · rw [hsh]; exact fun k hk => (hab k hk).1
    · rw [hsh, w4, w7]
      intro k hk
      have := (hab k hk).2
      show _ ≤ (rev? t (rev? t _)).getD k 0
      rw [rev?_rev?]; exact this
    · rw [hsh]; intro k hk
      rw [DRM.sketchD_ok q2, DRM.sketchD_ok q3]
      exact q6 k hk

/-- the slices for a chain of cut points -/
theorem sliceAll_ok (env : Env K) (D : DRM K) (cuts : List (List ℕ)) (S : ℕ → DRM K)
    (h : ∀ i, i + 1 < cuts.length → D.slice env (cuts.getD i []) (cuts.getD (i + 1) []) = .ok (S i)) :
    sliceAll env D cuts = .ok ((List.range (cuts.length - 1)).map S) := by
  obtain ⟨r, h1, h2, h3⟩ := mapM_exists (f := fun ab : List ℕ × List ℕ => D.slice env ab.1 ab.2)
    (Q := fun k b => b = S k) (([], []) : List ℕ × List ℕ) (S 0) (l := cuts.dropLast.zip cuts.tail) (fun k hk => by
      have hk' : k < cuts.length - 1 := by simpa using hk
      refine ⟨S k, ?_, rfl⟩
      rw [getD_zip (by simpa using hk') (by simpa using hk'), getD_dropLast hk', getD_tail]
      exact h k (by omega))
  have hl : (cuts.dropLast.zip cuts.tail).length = cuts.length - 1 := by simp
  unfold sliceAll
  rw [h1]
  congr 1
  refine list_ext_getD (S 0) (by rw [h2, hl]; simp) fun k hk => ?_
  rw [h2, hl] at hk
  rw [h3 k (by rw [hl]; exact hk), getD_map_range _ _ _ _ hk]

/-- the blocks that are computed -/
theorem components_ok (env : Env K) (X : Tensor K) (l r : DRM K) (lcuts rcuts : List (List ℕ))
    (excl : List (ℕ × ℕ)) (L R : ℕ → DRM K) (G : ℕ × ℕ → Container K)
    (hL : ∀ i, i + 1 < lcuts.length → l.slice env (lcuts.getD i []) (lcuts.getD (i + 1) []) = .ok (L i))
    (hR : ∀ i, i + 1 < rcuts.length → r.slice env (rcuts.getD i []) (rcuts.getD (i + 1) []) = .ok (R i))
    (hG : ∀ i j, i + 1 < lcuts.length → j + 1 < rcuts.length → (i, j) ∉ excl →
      generalSketch env X (some (L i)) (R j) .streaming = .ok (G (i, j))) :
    ∃ blocks, blockedComponents env X l r lcuts rcuts excl = .ok blocks ∧
      (∀ b ∈ blocks, b.1.1 + 1 < lcuts.length ∧ b.1.2 + 1 < rcuts.length ∧ b.1 ∉ excl ∧ b.2 = G b.1) ∧
      (∀ i j, i + 1 < lcuts.length → j + 1 < rcuts.length → (i, j) ∉ excl → ∃ b ∈ blocks, b.1 = (i, j)) := by
  have hz : ∀ (S : ℕ → DRM K) (n : ℕ) (x : DRM K × ℕ), x ∈ ((List.range n).map S).zipIdx ↔ x.2 < n ∧ x.1 = S x.2 := by
    intro S n x
    rw [List.mem_zipIdx_iff_getElem?]
    rw [List.getElem?_map]
    by_cases h : x.2 < n
    · rw [List.getElem?_range h]
      simp [h, eq_comm]
    · rw [List.getElem?_eq_none (by simpa using h)]
      simp [h]
  have hmem : ∀ p : (DRM K × ℕ) × (DRM K × ℕ),
      p ∈ ((((List.range (lcuts.length - 1)).map L).zipIdx.flatMap fun li =>
        ((List.range (rcuts.length - 1)).map R).zipIdx.map fun rj => (li, rj)).filter
          fun p => decide ((p.1.2, p.2.2) ∉ excl)) ↔
      (p.1.2 < lcuts.length - 1 ∧ p.1.1 = L p.1.2) ∧ (p.2.2 < rcuts.length - 1 ∧ p.2.1 = R p.2.2) ∧
        (p.1.2, p.2.2) ∉ excl := by
    rintro ⟨p, q⟩
    rw [List.mem_filter, List.mem_flatMap]
    simp only [List.mem_map, decide_eq_true_iff]
    constructor
    · rintro ⟨⟨li, h1, rj, h2, e⟩, h3⟩
      injection e with e1 e2
      subst e1 e2
      exact ⟨(hz L _ _).1 h1, (hz R _ _).1 h2, h3⟩
    · rintro ⟨h1, h2, h3⟩
      exact ⟨⟨p, (hz L _ _).2 h1, q, (hz R _ _).2 h2, rfl⟩, h3⟩
  have hrun := mapM_ok (f := fun p : (DRM K × ℕ) × (DRM K × ℕ) =>
      (generalSketch env X (some p.1.1) p.2.1 .streaming).andThen fun s => Except.ok ((p.1.2, p.2.2), s))
    (g := fun p => ((p.1.2, p.2.2), G (p.1.2, p.2.2)))
    (l := ((((List.range (lcuts.length - 1)).map L).zipIdx.flatMap fun li =>
        ((List.range (rcuts.length - 1)).map R).zipIdx.map fun rj => (li, rj)).filter
          fun p => decide ((p.1.2, p.2.2) ∉ excl))) (fun p hp => by
      obtain ⟨⟨h1, h2⟩, ⟨h3, h4⟩, h5⟩ := (hmem p).1 hp
      rw [h2, h4, hG _ _ (by omega) (by omega) h5]
      rfl)
  refine ⟨((((List.range (lcuts.length - 1)).map L).zipIdx.flatMap fun li =>
        ((List.range (rcuts.length - 1)).map R).zipIdx.map fun rj => (li, rj)).filter
          fun p => decide ((p.1.2, p.2.2) ∉ excl)).map fun p => ((p.1.2, p.2.2), G (p.1.2, p.2.2)), ?_, ?_, ?_⟩
  · unfold blockedComponents
    rw [sliceAll_ok env l lcuts L hL, sliceAll_ok env r rcuts R hR]
    exact hrun
  · intro b hb
    obtain ⟨p, hp, rfl⟩ := List.mem_map.1 hb
    obtain ⟨⟨h1, h2⟩, ⟨h3, h4⟩, h5⟩ := (hmem p).1 hp
    exact ⟨by show p.1.2 + 1 < _; omega, by show p.2.2 + 1 < _; omega, h5, rfl⟩
  · intro i j hi hj hx
    exact ⟨_, List.mem_map.2 ⟨((L i, i), (R j, j)), (hmem _).2 ⟨⟨by show i < _; omega, rfl⟩, ⟨by show j < _; omega, rfl⟩, hx⟩, rfl⟩, rfl⟩

/-- The hypotheses under which blocks are blocks of the whole sketch. -/
theorem blocks_ok (env : Env K) (X : Tensor K) (hX : X.Valid) (hd : 2 ≤ X.shape.length)
    (lk rk : DRMKind) (lrank rrank : RankArg) (lseed rseed : Option ℕ) (l r : DRM K)
    (hl : DRM.new env lk lrank X.shape false lseed = .ok l) (hls : SeedOk lk lseed)
    (hr : DRM.new env rk rrank X.shape true rseed = .ok r) (hrs : SeedOk rk rseed)
    (hll : (ranksOf lrank X.shape.length).length = X.shape.length - 1)
    (hrl : (ranksOf rrank X.shape.length).length = X.shape.length - 1)
    (hsup : ∀ t ∈ X.summands, l.data.supports t = true ∧ ¬ NeedsFull l t ∧
      r.data.supports t = true ∧ ¬ NeedsFull r t)
    (lcuts rcuts : List (List ℕ))
    (hlc : CutChain lcuts (ranksOf lrank X.shape.length) (X.shape.length - 1))
    (hrc : CutChain rcuts (ranksOf rrank X.shape.length) (X.shape.length - 1)) :
    ∃ (C : Container K) (L R : ℕ → DRM K) (G : ℕ × ℕ → Container K),
      generalSketch env X (some l) r .streaming = .ok C ∧
      C.HasShape X.shape (ranksOf lrank X.shape.length) (ranksOf rrank X.shape.length) ∧
      (∀ i, i + 1 < lcuts.length → l.slice env (lcuts.getD i []) (lcuts.getD (i + 1) []) = .ok (L i)) ∧
      (∀ i, i + 1 < rcuts.length → r.slice env (rcuts.getD i []) (rcuts.getD (i + 1) []) = .ok (R i)) ∧
      (∀ i j, i + 1 < lcuts.length → j + 1 < rcuts.length →
        generalSketch env X (some (L i)) (R j) .streaming = .ok (G (i, j)) ∧
        IsBlock (G (i, j)) C X.shape (lcuts.getD i []) (lcuts.getD (i + 1) []) (rcuts.getD j [])
          (rcuts.getD (j + 1) [])) := by
  obtain ⟨l0, e0, w1, w2, w3, w4, w5, w6, w7⟩ := C29_new (K := K) env lk lrank X.shape false lseed hd hll hls.lt
  rw [hl] at e0; injection e0 with e0; subst e0
  obtain ⟨r0, e0, v1, v2, v3, v4, v5, v6, v7⟩ := C29_new (K := K) env rk rrank X.shape true rseed hd hrl hrs.lt
  rw [hr] at e0; injection e0 with e0; subst e0
  have w7 : l.rank = ranksOf lrank X.shape.length := w7
  have v7 : r.rank.reverse = ranksOf rrank X.shape.length := by rw [v7, if_pos rfl, List.reverse_reverse]
  have accL := acceptsT_of w1 w2 hX w3.symm (fun t ht => (hsup t ht).1)
  have accR := acceptsT_of v1 v2 hX v3.symm (fun t ht => (hsup t ht).2.2.1)
  have hL : ∀ i, ∃ D' : DRM K, i + 1 < lcuts.length →
      l.slice env (lcuts.getD i []) (lcuts.getD (i + 1) []) = .ok D' ∧ D'.WF ∧ D'.shape = X.shape ∧
      D'.transpose = false ∧ D'.rank.length = X.shape.length - 1 ∧
      (∀ k < X.shape.length - 1, (rev? false D'.rank).getD k 0
        = (lcuts.getD (i + 1) []).getD k 0 - (lcuts.getD i []).getD k 0) ∧
      (∀ Y : Leaf K, Y.Valid → Y.shape = X.shape → l.data.supports Y = true → ¬ NeedsFull l Y →
        SliceOn env Y l D' (lcuts.getD i []) (lcuts.getD (i + 1) [])) := by
    intro i
    by_cases hi : i + 1 < lcuts.length
    · obtain ⟨D', h⟩ := slice_data env lk lrank X.shape false lseed hd hll hls l hl _ _
        (hlc.len i (by omega)) (hlc.len _ hi)
        (fun k hk => ⟨hlc.mono i hi k hk, hlc.le_last hk hi⟩)
      exact ⟨D', fun _ => h⟩
    · exact ⟨l, fun h => absurd h hi⟩
  have hR : ∀ i, ∃ D' : DRM K, i + 1 < rcuts.length →
      r.slice env (rcuts.getD i []) (rcuts.getD (i + 1) []) = .ok D' ∧ D'.WF ∧ D'.shape = X.shape ∧
      D'.transpose = true ∧ D'.rank.length = X.shape.length - 1 ∧
      (∀ k < X.shape.length - 1, (rev? true D'.rank).getD k 0
        = (rcuts.getD (i + 1) []).getD k 0 - (rcuts.getD i []).getD k 0) ∧
      (∀ Y : Leaf K, Y.Valid → Y.shape = X.shape → r.data.supports Y = true → ¬ NeedsFull r Y →
        SliceOn env Y r D' (rcuts.getD i []) (rcuts.getD (i + 1) [])) := by
    intro i
    by_cases hi : i + 1 < rcuts.length
    · obtain ⟨D', h⟩ := slice_data env rk rrank X.shape true rseed hd hrl hrs r hr _ _
        (hrc.len i (by omega)) (hrc.len _ hi)
        (fun k hk => ⟨hrc.mono i hi k hk, hrc.le_last hk hi⟩)
      exact ⟨D', fun _ => h⟩
    · exact ⟨r, fun h => absurd h hi⟩
  choose L hL using hL
  choose R hR using hR
  refine ⟨contSum env l r X.shape X.summands, L, R, fun ij => contSum env (L ij.1) (R ij.2) X.shape X.summands,
    streaming_sum accL accR w4 v4, ?_, fun i hi => (hL i hi).1, fun i hi => (hR i hi).1, fun i j hi hj => ?_⟩
  · rw [← w7, ← v7]
    exact contSum_hasShape (accL.ranks accR).2
  · obtain ⟨a1, a2, a3, a4, a5, a6, a7⟩ := hL i hi
    obtain ⟨b1, b2, b3, b4, b5, b6, b7⟩ := hR j hj
    have sL : ∀ t ∈ X.summands, SliceOn env t l (L i) (lcuts.getD i []) (lcuts.getD (i + 1) []) := fun t ht =>
      a7 t (Tensor.valid_summands hX t ht).1 (Tensor.valid_summands hX t ht).2 (hsup t ht).1 (hsup t ht).2.1
    have sR : ∀ t ∈ X.summands, SliceOn env t r (R j) (rcuts.getD j []) (rcuts.getD (j + 1) []) := fun t ht =>
      b7 t (Tensor.valid_summands hX t ht).1 (Tensor.valid_summands hX t ht).2 (hsup t ht).2.2.1 (hsup t ht).2.2.2
    have accL' : (L i).AcceptsT X := ⟨a2, a3.symm, fun t ht => (sL t ht).part⟩
    have accR' : (R j).AcceptsT X := ⟨b2, b3.symm, fun t ht => (sR t ht).part⟩
    refine ⟨streaming_sum accL' accR' a4 b4, ?_⟩
    refine contSum_block (fun t ht => (Tensor.valid_summands hX t ht).2) w4 v4 sL sR (hrc.len j (by omega))
      (hrc.len _ hj) (accL.ranks accR).1 (accL.ranks accR).2 (accL'.ranks accR').1 (accL'.ranks accR').2
      a6 b6 ?_ ?_
    · rw [w7]; exact fun k hk => hlc.le_last hk hi
    · rw [v7]; exact fun k hk => hrc.le_last hk hj

/-- C44: for every tensor (or lazy sum), every pair of DRM classes having a method for it, all ranks and all chains
of cut points from `0` to the full ranks, `blocked_stream_sketch` returns exactly what the ordinary streaming sketch
returns.

Domain: as in C30: a `DenseGaussianDRM` needs a seed below `2^32 - 1`, a `TensorTrainDRM` must not meet dense or
Tucker tensors (`C44_dense` shows the failure). -/
theorem C44_blocked (env : Env K) (X : Tensor K) (hX : X.Valid) (hd : 2 ≤ X.shape.length)
    (lk rk : DRMKind) (lrank rrank : RankArg) (lseed rseed : Option ℕ) (l r : DRM K)
    (hl : DRM.new env lk lrank X.shape false lseed = .ok l) (hls : SeedOk lk lseed)
    (hr : DRM.new env rk rrank X.shape true rseed = .ok r) (hrs : SeedOk rk rseed)
    (hll : (ranksOf lrank X.shape.length).length = X.shape.length - 1)
    (hrl : (ranksOf rrank X.shape.length).length = X.shape.length - 1)
    (hsup : ∀ t ∈ X.summands, l.data.supports t = true ∧ ¬ NeedsFull l t ∧
      r.data.supports t = true ∧ ¬ NeedsFull r t)
    (lcuts rcuts : List (List ℕ))
    (hlc : CutChain lcuts (ranksOf lrank X.shape.length) (X.shape.length - 1))
    (hrc : CutChain rcuts (ranksOf rrank X.shape.length) (X.shape.length - 1)) :
    ∃ C : Container K, blockedStreamSketch env X l r lcuts rcuts = .ok C ∧
      generalSketch env X (some l) r .streaming = .ok C := by
  obtain ⟨C, L, R, G, h1, h2, h3, h4, h5⟩ := blocks_ok env X hX hd lk rk lrank rrank lseed rseed l r hl hls hr hrs
    hll hrl hsup lcuts rcuts hlc hrc
  obtain ⟨blocks, k1, k2, k3⟩ := components_ok env X l r lcuts rcuts [] L R G h3 h4
    (fun i j hi hj _ => (h5 i j hi hj).1)
  refine ⟨C, ?_, h1⟩
  unfold blockedStreamSketch
  rw [k1]
  refine write_all hd h2 hlc hrc blocks (fun b hb => ?_) (fun i j hi hj => k3 i j hi hj (by simp))
  obtain ⟨q1, q2, -, q3⟩ := k2 b hb
  refine ⟨q1, q2, ?_⟩
  rw [q3]
  exact (h5 _ _ q1 q2).2

/-- a tensor train and a sparse tensor summed lazily, a `DenseGaussianDRM` on the left and a `TensorTrainDRM` on
the right: the hypotheses hold and the conclusion is about a chain with an empty slice -/
example (l r : DRM ℤ) (hl : DRM.new env0 .denseGaussian (.seq [2]) [2, 3] false (some 7) = .ok l)
    (hr : DRM.new env0 .tensorTrain (.seq [3]) [2, 3] true (some 7) = .ok r) :
    ∃ C : Container ℤ, blockedStreamSketch env0 (.sum ⟨[2, 3], [.tt sTT, .sparse sSparse]⟩) l r
        [[0], [1], [1], [2]] [[0], [2], [3]] = .ok C ∧
      generalSketch env0 (.sum ⟨[2, 3], [.tt sTT, .sparse sSparse]⟩) (some l) r .streaming = .ok C := by
  have kl : l.data.kind = .denseGaussian := by injection hl with hl; subst hl; rfl
  have kr : r.data.kind = .tensorTrain := by injection hr with hr; subst hr; rfl
  refine C44_blocked env0 (.sum ⟨[2, 3], [.tt sTT, .sparse sSparse]⟩) ?_ (by decide) .denseGaussian .tensorTrain
    (.seq [2]) (.seq [3]) (some 7) (some 7) l r hl (fun _ => ⟨7, by norm_num, rfl⟩) hr (by intro h; cases h)
    (by decide) (by decide) ?_ _ _ ?_ ?_
  · intro t ht
    simp only [List.mem_cons, List.not_mem_nil, or_false] at ht
    rcases ht with rfl | rfl
    · exact ⟨sTT_valid, rfl⟩
    · exact ⟨sSparse_valid, rfl⟩
  · intro t ht
    have ht : t ∈ [Leaf.tt sTT, Leaf.sparse sSparse] := ht
    simp only [List.mem_cons, List.not_mem_nil, or_false] at ht
    rcases ht with rfl | rfl
    · exact ⟨(supports_kind _ (.dense []) kl _).trans rfl,
        fun h => (needsFull_kind (D' := ⟨l.toDRMBase, .dense []⟩) kl _).1 h,
        (supports_kind _ (.tt []) kr _).trans rfl,
        fun h => (needsFull_kind (D' := ⟨r.toDRMBase, .tt []⟩) kr _).1 h⟩
    · exact ⟨(supports_kind _ (.dense []) kl _).trans rfl,
        fun h => (needsFull_kind (D' := ⟨l.toDRMBase, .dense []⟩) kl _).1 h,
        (supports_kind _ (.tt []) kr _).trans rfl,
        fun h => (needsFull_kind (D' := ⟨r.toDRMBase, .tt []⟩) kr _).1 h⟩
  · refine ⟨by decide, by decide, rfl, rfl, fun i hi k hk => ?_⟩
    have hi : i + 1 < 4 := hi
    have hk : k < 1 := hk
    have hi : i < 3 := by omega
    interval_cases k
    interval_cases i <;> decide
  · refine ⟨by decide, by decide, rfl, rfl, fun i hi k hk => ?_⟩
    have hi : i + 1 < 3 := hi
    have hk : k < 1 := hk
    have hi : i < 2 := by omega
    interval_cases k
    interval_cases i <;> decide

/-- Finding: with `TensorTrainDRM` a dense tensor has no blocked sketch: the slices are ignored, so the blocks do
not fit. -/
theorem C44_dense : ∃ (env : Env ℤ) (X : ND ℤ) (l r : DRM ℤ),
    DRM.new env .tensorTrain (.seq [2]) [2, 2] false (some 7) = .ok l ∧
    DRM.new env .tensorTrain (.seq [1]) [2, 2] true (some 7) = .ok r ∧ X.shape = [2, 2] ∧
    (generalSketch env (.leaf (.dense X)) (some l) r .streaming).isOk = true ∧
    blockedStreamSketch env (.leaf (.dense X)) l r [[0], [1], [2]] [[0], [1]] = .error .valueError := by
  refine ⟨env0, ND.zeros [2, 2], _, _, rfl, rfl, rfl, rfl, rfl⟩

/-! ## C45 -/

/-- The DRM classes with `increase_rank`. -/
def Growable (kind : DRMKind) : Prop := kind = .denseGaussian ∨ kind = .sparseGaussian

theorem increase_new (env : Env K) {kind : DRMKind} (hk : Growable kind) {D : DRM K} (h : D.data.kind = kind)
    (new : List ℕ) : D.increaseRank env new
      = DRM.new env kind (.seq new) D.shape D.transpose (some D.seed) := by
  obtain ⟨B, d⟩ := D
  rcases hk with rfl | rfl <;> cases d <;> simp [DRMData.kind] at h <;> rfl

/-- C45: if `stt` is a streaming sketch of `X`, `stt.increase_rank(X, l, r)` is the streaming sketch of `X` with the
enlarged DRMs (which are those made afresh with the seeds of the old ones), for all old and new ranks, all tensors
and lazy sums, and all combinations of the two DRM classes that can grow.  The result meets the hypotheses again. -/
theorem C45_increase (env : Env K) (X : Tensor K) (hX : X.Valid) (hd : 2 ≤ X.shape.length)
    (lk rk : DRMKind) (glk : Growable lk) (grk : Growable rk) (lrank rrank : RankArg) (lseed rseed : Option ℕ)
    (S : Sketched K)
    (hl : DRM.new env lk lrank X.shape false lseed = .ok S.left) (hls : SeedOk lk lseed)
    (hr : DRM.new env rk rrank X.shape true rseed = .ok S.right) (hrs : SeedOk rk rseed)
    (hll : (ranksOf lrank X.shape.length).length = X.shape.length - 1)
    (hrl : (ranksOf rrank X.shape.length).length = X.shape.length - 1)
    (hsup : ∀ t ∈ X.summands, S.left.data.supports t = true ∧ S.right.data.supports t = true)
    (hS : generalSketch env X (some S.left) S.right .streaming = .ok S.sketch)
    (newL newR : RankArg)
    (hnl : (ranksOf newL X.shape.length).length = X.shape.length - 1)
    (hnr : (ranksOf newR X.shape.length).length = X.shape.length - 1)
    (lle : ∀ k < X.shape.length - 1, (ranksOf lrank X.shape.length).getD k 0 ≤ (ranksOf newL X.shape.length).getD k 0)
    (rle : ∀ k < X.shape.length - 1, (ranksOf rrank X.shape.length).getD k 0 ≤ (ranksOf newR X.shape.length).getD k 0) :
    ∃ S' : Sketched K, S.increaseRank env X newL newR = .ok S' ∧
      S.left.increaseRank env (ranksOf newL X.shape.length) = .ok S'.left ∧
      S.right.increaseRank env (ranksOf newR X.shape.length) = .ok S'.right ∧
      generalSketch env X (some S'.left) S'.right .streaming = .ok S'.sketch ∧
      S'.left.rank = ranksOf newL X.shape.length ∧ S'.right.rank.reverse = ranksOf newR X.shape.length ∧
      DRM.new env lk newL X.shape false (some S.left.seed) = .ok S'.left ∧ SeedOk lk (some S.left.seed) ∧
      DRM.new env rk newR X.shape true (some S.right.seed) = .ok S'.right ∧ SeedOk rk (some S.right.seed) := by
  obtain ⟨l0, e0, w1, w2, w3, w4, w5, w6, w7⟩ := C29_new (K := K) env lk lrank X.shape false lseed hd hll hls.lt
  rw [hl] at e0; injection e0 with e0; subst e0
  obtain ⟨r0, e0, v1, v2, v3, v4, v5, v6, v7⟩ := C29_new (K := K) env rk rrank X.shape true rseed hd hrl hrs.lt
  rw [hr] at e0; injection e0 with e0; subst e0
  have w7 : S.left.rank = ranksOf lrank X.shape.length := w7
  have v7 : S.right.rank.reverse = ranksOf rrank X.shape.length := by rw [v7, if_pos rfl, List.reverse_reverse]
  set nl := ranksOf newL X.shape.length with enl
  set nr := ranksOf newR X.shape.length with enr
  have sl : SeedOk lk (some S.left.seed) := fun _ => ⟨_, w6, rfl⟩
  have sr : SeedOk rk (some S.right.seed) := fun _ => ⟨_, v6, rfl⟩
  obtain ⟨l, el, lw1, lw2, lw3, lw4, lw5, lw6, lw7⟩ := C29_new (K := K) env lk (.seq nl) X.shape false
    (some S.left.seed) hd hnl sl.lt
  obtain ⟨r, er, rw1, rw2, rw3, rw4, rw5, rw6, rw7⟩ := C29_new (K := K) env rk (.seq nr) X.shape true
    (some S.right.seed) hd hnr sr.lt
  have lw7 : l.rank = nl := lw7
  have rw7 : r.rank.reverse = nr := by rw [rw7, if_pos rfl, List.reverse_reverse]; rfl
  have il : S.left.increaseRank env nl = .ok l := by rw [increase_new env glk w5, w3, w4]; exact el
  have ir : S.right.increaseRank env nr = .ok r := by rw [increase_new env grk v5, v3, v4]; exact er
  have nfull : ∀ {D : DRM K} {kind : DRMKind}, Growable kind → D.data.kind = kind → ∀ Y : Leaf K, ¬ NeedsFull D Y := by
    intro D kind hk h Y
    obtain ⟨B, d⟩ := D
    rcases hk with rfl | rfl <;> cases d <;> simp [DRMData.kind] at h <;> exact fun h => h
  have hsup' : ∀ t ∈ X.summands, l.data.supports t = true ∧ ¬ NeedsFull l t ∧
      r.data.supports t = true ∧ ¬ NeedsFull r t := fun t ht =>
    ⟨by rw [supports_kind l.data S.left.data (lw5.trans w5.symm)]; exact (hsup t ht).1, nfull glk lw5 t,
     by rw [supports_kind r.data S.right.data (rw5.trans v5.symm)]; exact (hsup t ht).2, nfull grk rw5 t⟩
  have lcc : CutChain [List.replicate (X.shape.length - 1) 0, S.left.rank, nl] nl (X.shape.length - 1) := by
    refine ⟨by simp, ?_, rfl, rfl, ?_⟩
    · intro i hi
      have hi : i < 3 := hi
      interval_cases i
      · exact List.length_replicate
      · show S.left.rank.length = _; rw [w7, hll]
      · exact hnl
    · intro i hi k hk
      have hi : i + 1 < 3 := hi
      have hi : i < 2 := by omega
      interval_cases i
      · show (List.replicate _ 0).getD k 0 ≤ _
        rw [replicate_getD_zero]; exact Nat.zero_le _
      · show S.left.rank.getD k 0 ≤ nl.getD k 0; rw [w7]; exact lle k hk
  have rcc : CutChain [List.replicate (X.shape.length - 1) 0, S.right.rank.reverse, nr] nr (X.shape.length - 1) := by
    refine ⟨by simp, ?_, rfl, rfl, ?_⟩
    · intro i hi
      have hi : i < 3 := hi
      interval_cases i
      · exact List.length_replicate
      · show S.right.rank.reverse.length = _; rw [v7, hrl]
      · exact hnr
    · intro i hi k hk
      have hi : i + 1 < 3 := hi
      have hi : i < 2 := by omega
      interval_cases i
      · show (List.replicate _ 0).getD k 0 ≤ _
        rw [replicate_getD_zero]; exact Nat.zero_le _
      · show S.right.rank.reverse.getD k 0 ≤ nr.getD k 0; rw [v7]; exact rle k hk
  obtain ⟨C, L, R, G, h1, h2, h3, h4, h5⟩ := blocks_ok env X hX hd lk rk (.seq nl) (.seq nr) _ _ l r el sl er sr
    hnl hnr hsup' _ _ lcc rcc
  obtain ⟨blocks, k1, k2, k3⟩ := components_ok env X l r _ _ [(0, 0)] L R G h3 h4
    (fun i j hi hj _ => (h5 i j hi hj).1)
  have accL := acceptsT_of w1 w2 hX w3.symm (fun t ht => (hsup t ht).1)
  have accR := acceptsT_of v1 v2 hX v3.symm (fun t ht => (hsup t ht).2)
  have accL' := acceptsT_of lw1 lw2 hX lw3.symm (fun t ht => (hsup' t ht).1)
  have accR' := acceptsT_of rw1 rw2 hX rw3.symm (fun t ht => (hsup' t ht).2.2.1)
  have eS : S.sketch = contSum env S.left S.right X.shape X.summands := by
    rw [streaming_sum accL accR w4 v4] at hS
    injection hS with hS; exact hS.symm
  have eC : C = contSum env l r X.shape X.summands := by
    rw [streaming_sum accL' accR' lw4 rw4] at h1
    injection h1 with h1; exact h1.symm
  have slL : ∀ t ∈ X.summands, SliceOn env t l S.left (List.replicate (X.shape.length - 1) 0) S.left.rank := by
    intro t ht
    have hv := Tensor.valid_summands hX t ht
    obtain ⟨D', A, B, q1, -, -, -, -, -, -, q2, q3, -, -, q4⟩ := C31_increase env lk glk lrank X.shape false lseed hd
      hll hls S.left hl nl hnl lle t hv.1 hv.2 (hsup t ht).1
    rw [il] at q1
    injection q1 with q1
    subst q1
    refine ⟨accL'.each t ht, accL.each t ht, w4.trans lw4.symm, ?_, ?_, ?_, ?_⟩
    · intro k hk; rw [lw4, replicate_getD_zero]; rfl
    · intro k hk; rw [replicate_getD_zero]; exact Nat.zero_le _
    · rw [hv.2]; intro k hk; rw [lw4]; show _ ≤ l.rank.getD k 0; rw [lw7, w7]; exact lle k hk
    · rw [hv.2]; intro k hk
      rw [DRM.sketchD_ok q2, DRM.sketchD_ok q3, replicate_getD_zero, w7]
      exact q4 k hk
  have slR : ∀ t ∈ X.summands, SliceOn env t r S.right (List.replicate (X.shape.length - 1) 0) S.right.rank.reverse := by
    intro t ht
    have hv := Tensor.valid_summands hX t ht
    obtain ⟨D', A, B, q1, -, -, -, -, -, -, q2, q3, -, -, q4⟩ := C31_increase env rk grk rrank X.shape true rseed hd
      hrl hrs S.right hr nr hnr rle t hv.1 hv.2 (hsup t ht).2
    rw [ir] at q1
    injection q1 with q1
    subst q1
    refine ⟨accR'.each t ht, accR.each t ht, v4.trans rw4.symm, ?_, ?_, ?_, ?_⟩
    · intro k hk; rw [rw4, replicate_getD_zero]; rfl
    · intro k hk; rw [replicate_getD_zero]; exact Nat.zero_le _
    · rw [hv.2]; intro k hk; rw [rw4]; show _ ≤ r.rank.reverse.getD k 0; rw [rw7, v7]; exact rle k hk
    · rw [hv.2]; intro k hk
      rw [DRM.sketchD_ok q2, DRM.sketchD_ok q3, replicate_getD_zero, v7]
      exact q4 k hk
  have hblock : IsBlock S.sketch C X.shape (List.replicate (X.shape.length - 1) 0) S.left.rank
      (List.replicate (X.shape.length - 1) 0) S.right.rank.reverse := by
    rw [eS, eC]
    refine contSum_block (fun t ht => (Tensor.valid_summands hX t ht).2) lw4 rw4 slL slR (by simp)
      (by rw [v7, hrl]) (accL'.ranks accR').1 (accL'.ranks accR').2 (accL.ranks accR).1 (accL.ranks accR).2 ?_ ?_ ?_ ?_
    · intro k hk; rw [replicate_getD_zero]; rfl
    · intro k hk; rw [replicate_getD_zero]; rfl
    · rw [lw7, w7]; exact lle
    · rw [rw7, v7]; exact rle
  have hwrite : assembleBlocked [List.replicate (X.shape.length - 1) 0, S.left.rank, nl]
      [List.replicate (X.shape.length - 1) 0, S.right.rank.reverse, nr] X.shape (blocks ++ [((0, 0), S.sketch)])
        = .ok C := by
    refine write_all hd h2 lcc rcc _ (fun b hb => ?_) (fun i j hi hj => ?_)
    · rcases List.mem_append.1 hb with hb | hb
      · obtain ⟨q1, q2, -, q3⟩ := k2 b hb
        refine ⟨q1, q2, ?_⟩
        rw [q3]
        exact (h5 _ _ q1 q2).2
      · have : b = ((0, 0), S.sketch) := by simpa using hb
        subst this
        exact ⟨by simp, by simp, hblock⟩
    · by_cases h0 : (i, j) = (0, 0)
      · exact ⟨((0, 0), S.sketch), by simp, h0.symm⟩
      · obtain ⟨b, hb, e⟩ := k3 i j hi hj (by simpa using h0)
        exact ⟨b, by simp [hb], e⟩
  refine ⟨⟨C, l, r⟩, ?_, il, ir, h1, lw7, rw7, ?_, sl, ?_, sr⟩
  · unfold Sketched.increaseRank
    rw [process_ranksOf hnl hd, process_ranksOf hnr hd]
    simp only [Except.andThen, ← enl, ← enr]
    rw [il, ir]
    simp only []
    rw [k1]
    simp only []
    rw [hwrite]
  · have e1 := new_full (K := K) env lk newL X.shape false (some S.left.seed) hd hnl sl.lt
    have e2 := new_full (K := K) env lk (.seq nl) X.shape false (some S.left.seed) hd hnl sl.lt
    rw [e1, ← el, e2]; rfl
  · have e1 := new_full (K := K) env rk newR X.shape true (some S.right.seed) hd hnr sr.lt
    have e2 := new_full (K := K) env rk (.seq nr) X.shape true (some S.right.seed) hd hnr sr.lt
    rw [e1, ← er, e2]; rfl

/-- the hypotheses of `C45_increase` hold for a sketch of a sparse tensor with both classes -/
example (l r : DRM ℤ) (C : Container ℤ)
    (hl : DRM.new env0 .denseGaussian (.seq [1]) [2, 3] false (some 7) = .ok l)
    (hr : DRM.new env0 .sparseGaussian (.int 2) [2, 3] true none = .ok r)
    (hS : generalSketch env0 (.leaf (.sparse sSparse)) (some l) r .streaming = .ok C) :
    ∃ S' : Sketched ℤ, Sketched.increaseRank env0 ⟨C, l, r⟩ (.leaf (.sparse sSparse)) (.int 3) (.seq [2]) = .ok S' ∧
      generalSketch env0 (.leaf (.sparse sSparse)) (some S'.left) S'.right .streaming = .ok S'.sketch ∧
      S'.left.rank = [3] := by
  have kl : l.data.kind = .denseGaussian := by injection hl with hl; subst hl; rfl
  have kr : r.data.kind = .sparseGaussian := by injection hr with hr; subst hr; rfl
  obtain ⟨S', h1, -, -, h2, h3, -⟩ := C45_increase env0 (.leaf (.sparse sSparse)) sSparse_valid (by decide)
    .denseGaussian .sparseGaussian (.inl rfl) (.inr rfl) (.seq [1]) (.int 2) (some 7) none ⟨C, l, r⟩ hl
    (fun _ => ⟨7, by norm_num, rfl⟩) hr (by intro h; cases h) (by decide) (by decide)
    (fun t ht => by
      have : t = .sparse sSparse := by simpa [Tensor.summands] using ht
      subst this
      exact ⟨(supports_kind _ (.dense []) kl _).trans rfl, (supports_kind _ .gauss kr _).trans rfl⟩)
    hS (.int 3) (.seq [2]) (by decide) (by decide)
    (fun k hk => by have hk : k < 1 := hk; interval_cases k; decide)
    (fun k hk => by have hk : k < 1 := hk; interval_cases k; decide)
  exact ⟨S', h1, h2, h3⟩

/-- Finding: with a left `TensorTrainDRM` or `SparseSignDRM` the documented `ValueError` is an
`AttributeError` (the check tests for the ability to slice, which all classes have). -/
theorem C45_other (env : Env K) (X : Tensor K) (S : Sketched K) (newL newR : RankArg)
    (hd : 2 ≤ X.shape.length)
    (hnl : (ranksOf newL X.shape.length).length = X.shape.length - 1)
    (hnr : (ranksOf newR X.shape.length).length = X.shape.length - 1)
    (hk : S.left.data.kind = .tensorTrain ∨ S.left.data.kind = .sparseSign) :
    S.increaseRank env X newL newR = .error .attributeError := by
  unfold Sketched.increaseRank
  rw [process_ranksOf hnl hd, process_ranksOf hnr hd]
  simp only [Except.andThen]
  rw [C31_other env S.left _ hk]

/-- C45: the same if only the right DRM is of such a class. -/
theorem C45_other_right (env : Env K) (X : Tensor K) (S : Sketched K) (hd : 2 ≤ X.shape.length) (lk : DRMKind)
    (glk : Growable lk) (lrank : RankArg) (lseed : Option ℕ)
    (hl : DRM.new env lk lrank X.shape false lseed = .ok S.left) (hls : SeedOk lk lseed)
    (hll : (ranksOf lrank X.shape.length).length = X.shape.length - 1) (newL newR : RankArg)
    (hnl : (ranksOf newL X.shape.length).length = X.shape.length - 1)
    (hnr : (ranksOf newR X.shape.length).length = X.shape.length - 1)
    (hk : S.right.data.kind = .tensorTrain ∨ S.right.data.kind = .sparseSign) :
    S.increaseRank env X newL newR = .error .attributeError := by
  obtain ⟨l0, e0, w1, w2, w3, w4, w5, w6, w7⟩ := C29_new (K := K) env lk lrank X.shape false lseed hd hll hls.lt
  rw [hl] at e0; injection e0 with e0; subst e0
  have sl : SeedOk lk (some S.left.seed) := fun _ => ⟨_, w6, rfl⟩
  obtain ⟨l, el, -⟩ := C29_new (K := K) env lk (.seq (ranksOf newL X.shape.length)) X.shape false
    (some S.left.seed) hd hnl sl.lt
  have il : S.left.increaseRank env (ranksOf newL X.shape.length) = .ok l := by
    rw [increase_new env glk w5, w3, w4]; exact el
  unfold Sketched.increaseRank
  rw [process_ranksOf hnl hd, process_ranksOf hnr hd]
  simp only [Except.andThen]
  rw [il]
  simp only
  rw [C31_other env S.right _ hk]

example : ∃ (l r : DRM ℤ) (S : Sketched ℤ), DRM.new env0 .denseGaussian (.seq [1]) [2, 2] false (some 7) = .ok l ∧
    DRM.new env0 .tensorTrain (.seq [2]) [2, 2] true (some 8) = .ok r ∧ S.left = l ∧ S.right = r ∧
    S.right.data.kind = .tensorTrain :=
  ⟨_, _, ⟨⟨[], [], [], [], []⟩, _, _⟩, rfl, rfl, rfl, rfl, rfl⟩

end TTS.Props
