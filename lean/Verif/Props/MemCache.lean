import Verif.Props.MemShare
import Verif.Props.Tensor

/-! # C76 (shapes, examples of shared memory); C77: cached dictionaries of sparse tensors -/

namespace TTS.Props

open TTS Mem

variable {K : Type*} [CommSemiring K]

/-! ### the attribute `shape` -/

/-- the attribute `shape` of each tensor object is the shape of the tensor it currently is -/
def ShapeOk (h : Mem K) : Prop := ∀ x < h.objs.length, h.shapeAttr x = (h.val x).shape

theorem leafShape_congr {h h' : Mem K} {sh : List ℕ} {b : Body}
    (h1 : ∀ l, b.list? = some l → (h'.list l).map (fun a => (h'.arr a).shape) = (h.list l).map fun a => (h.arr a).shape)
    (h2 : ∀ a, b.arr? = some a → (h'.arr a).shape = (h.arr a).shape) :
    (h'.leafOf sh b).shape = (h.leafOf sh b).shape := by
  have key : ∀ (l k : ℕ), b.list? = some l →
      (h'.list l).map (fun a => (h'.arr a).dim k) = (h.list l).map fun a => (h.arr a).dim k := fun l k hl => by
    have := congrArg (List.map fun s : List ℕ => s.getD k 0) (h1 l hl)
    rw [List.map_map, List.map_map] at this
    exact this
  cases b with
  | dense a => exact h2 a rfl
  | sparse ind a => rfl
  | tt l => simpa [leafOf, Leaf.shape, TT.shape, Function.comp_def] using key l 1 rfl
  | cp l => simpa [leafOf, Leaf.shape, CP.shape, Function.comp_def] using key l 0 rfl
  | tucker l a => simpa [leafOf, Leaf.shape, Tucker.shape, Function.comp_def] using key l 1 rfl

theorem step_shapeOk {h h' : Mem K} (hO : h.Ok) (hS : ShapeOk h) {s : MStmt K} (hs : h.step s = .ok h')
    (hk : match s with
      | .setitem y i a => ∀ l, (h.body y).list? = some l → (h.arr a).shape = (h.arr ((h.list l).getD i 0)).shape
      | _ => True) : ShapeOk h' := by
  intro x hx
  have e := step_pre hO hs
  have sh : ∀ a < h.arrs.length, (h'.arr a).shape = (h.arr a).shape := fun a ha =>
    arr_shape_of hO e (fun b hb => step_buf_shape hO hs hb) ha
  by_cases h1 : x < h.objs.length
  · rw [e.shapeAttr h1, hS x h1]
    unfold Mem.val
    rw [e.body h1, e.shapeAttr h1]
    refine (leafShape_congr (fun l hl => ?_) fun a ha => sh a (hO.objs_arr x h1 a ha)).symm
    have hl' := hO.objs_list x h1 l hl
    have same : (h.list l).map (fun a => (h'.arr a).shape) = (h.list l).map fun a => (h.arr a).shape :=
      List.map_congr_left fun a ha => sh a (hO.lists l hl' a ha)
    by_cases hc : Mem.Pure s
    · rw [(step_create hO hc hs).1.list hl']
      exact same
    cases s with
    | setitem y i a =>
      obtain ⟨k1, k2, m, k3, k4, rfl⟩ := step_setitem hs
      by_cases hlm : l = m
      · subst hlm
        show ((h.lists.set l ((h.list l).set i a)).getD l []).map (fun a => (h.arr a).shape) = _
        rw [getD_set_self hl', List.map_set]
        refine List.ext_getElem (by simp) fun j j1 j2 => ?_
        rw [List.getElem_set]
        split
        · rename_i hij
          subst hij
          rw [hk l k3, List.getElem_map, List.getD_eq_getElem _ _ k4]
        · rfl
      · show ((h.lists.set m ((h.list m).set i a)).getD l []).map _ = _
        rw [getD_set_ne hlm]
        rfl
    | write a i v =>
      have hl2 : h'.list l = h.list l := by
        obtain ⟨-, -, rfl⟩ := step_write hs
        rfl
      rw [hl2]
      exact same
    | _ => exact absurd trivial hc
  · rcases step_objs hs with h2 | ⟨h2, sh, b, rfl, e2⟩
    · rw [h2] at hx
      exact absurd hx h1
    · rw [allocObj_length, e2] at hx
      obtain rfl : x = h2.objs.length := by rw [e2]; omega
      rw [allocObj_shapeAttr, allocObj_val, leafOf_shape]

theorem run_shapeOk : ∀ {p : List (MStmt K)} {h h' : Mem K}, h.Ok → ShapeOk h → h.KeepsShapes p → h.run p = .ok h' →
    ShapeOk h'
  | [], h, h', _, hS, _, hr => by cases hr; exact hS
  | s :: p, h, h', hO, hS, hk, hr => by
    obtain ⟨h1, hs, hr⟩ := run_cons hr
    have hk' : _ ∧ (match h.step s with | .ok h' => h'.KeepsShapes p | .error _ => True) := hk
    rw [hs] at hk'
    refine run_shapeOk (step_ok hO hs) (step_shapeOk hO hS hs ?_) hk'.2 hr
    cases s <;> first | trivial | exact hk'.1

/-- **C76, shapes.** In a program in which item assignments replace cores by arrays of the same shape, the attribute
`shape` of every tensor object is always the shape of the tensor. -/
theorem C76_shape (p : List (MStmt K)) (h : Mem K) (hp : Mem.empty.run p = .ok h)
    (hk : (Mem.empty : Mem K).KeepsShapes p) (x : ℕ) (hx : x < h.objs.length) : h.shapeAttr x = (h.val x).shape :=
  run_shapeOk empty_ok (fun x hx => by simp [Mem.empty] at hx) hk hp x hx

/-! ### the cached dictionary -/

theorem step_caches {h h' : Mem K} {s : MStmt K} (hs : h.step s = .ok h') (x : ℕ) (hx : s ≠ .gather x) :
    h'.caches x = h.caches x := by
  cases s with
  | gather y =>
    have hyx : x ≠ y := fun e => hx (by rw [e])
    simp only [step] at hs
    split_ifs at hs
    split at hs
    · cases hs
      show Function.update h.caches y _ x = _
      rw [Function.update_of_ne hyx]
    · cases hs; rfl
  | setitem y i a =>
    obtain ⟨-, -, l, -, -, rfl⟩ := step_setitem hs
    rfl
  | write a i v =>
    obtain ⟨-, -, rfl⟩ := step_write hs
    rfl
  | array A => cases hs; rfl
  | list as => simp only [step] at hs; split_ifs at hs; cases hs; rfl
  | dense a => simp only [step] at hs; split_ifs at hs; cases hs; rfl
  | sparse sh ind a => simp only [step] at hs; split_ifs at hs; cases hs; rfl
  | tt l => simp only [step] at hs; split_ifs at hs; cases hs; rfl
  | cp l => simp only [step] at hs; split_ifs at hs; cases hs; rfl
  | tucker l a => simp only [step] at hs; split_ifs at hs; cases hs; rfl
  | T x =>
    simp only [step] at hs
    split_ifs at hs
    split at hs
    · cases hs; rfl
    · cases hs; rfl
    · split_ifs at hs; cases hs; rfl
    · cases hs; rfl
    · split_ifs at hs; cases hs; rfl
  | mul x c =>
    simp only [step] at hs
    split_ifs at hs
    split at hs
    · cases hs; rfl
    · cases hs; rfl
    · split at hs
      · cases hs
      · cases hs; rfl
    · split at hs
      · cases hs
      · cases hs; rfl
    · cases hs; rfl
  | add x y =>
    simp only [step] at hs
    split_ifs at hs
    split at hs
    · cases hs; rfl
    · cases hs

theorem step_gather {h h' : Mem K} {x : ℕ} (hs : h.step (.gather x) = .ok h') {X : Sparse K} (hX : h.val x = .sparse X) :
    x < h.objs.length ∧ h'.caches x = some ((h.caches x).getD X.dict) := by
  simp only [step] at hs
  split_ifs at hs with h1
  rw [hX] at hs
  cases hs
  exact ⟨h1, Function.update_self _ _ _⟩

theorem run_caches_none : ∀ {p : List (MStmt K)} {h h' : Mem K}, h.run p = .ok h' → ∀ x, .gather x ∉ p →
    h'.caches x = h.caches x
  | [], h, h', hr, x, _ => by cases hr; rfl
  | s :: p, h, h', hr, x, hx => by
    obtain ⟨h1, hs, hr⟩ := run_cons hr
    rw [run_caches_none hr x fun hm => hx (List.mem_cons_of_mem _ hm)]
    exact step_caches hs x fun e => hx (by rw [e]; exact List.mem_cons_self)

/-- only existing objects have a cached dictionary -/
theorem step_caches_new {h h' : Mem K} (hO : h.Ok) (hN : ∀ x, h.objs.length ≤ x → h.caches x = none) {s : MStmt K}
    (hs : h.step s = .ok h') : ∀ x, h'.objs.length ≤ x → h'.caches x = none := by
  intro x hx
  have hx' := (step_pre hO hs).objs.length_le.trans hx
  by_cases e : s = .gather x
  · subst e
    simp only [step] at hs
    split_ifs at hs
    omega
  · rw [step_caches hs x e, hN x hx']

theorem reachable_caches_new {h : Mem K} (hr : h.Reachable) : ∀ x, h.objs.length ≤ x → h.caches x = none := by
  obtain ⟨p, hp⟩ := hr
  have : ∀ (p : List (MStmt K)) (g : Mem K), g.Ok → (∀ x, g.objs.length ≤ x → g.caches x = none) → g.run p = .ok h →
      ∀ x, h.objs.length ≤ x → h.caches x = none := by
    intro p
    induction p with
    | nil => intro g _ hN hp; cases hp; exact hN
    | cons s p ih =>
      intro g hO hN hp
      obtain ⟨g1, hs, hp⟩ := run_cons hp
      exact ih g1 (step_ok hO hs) (step_caches_new hO hN hs) hp
  exact this p _ empty_ok (fun x _ => rfl) hp

/-- sparse tensor objects stay sparse, with the same shape -/
theorem run_sparse {p : List (MStmt K)} {h h' : Mem K} (hO : h.Ok) (hp : h.run p = .ok h') {x : ℕ}
    (hx : x < h.objs.length) {X : Sparse K} (hX : h.val x = .sparse X) :
    ∃ X', h'.val x = .sparse X' ∧ X'.shape = X.shape := by
  have e := run_pre hO hp
  unfold Mem.val at hX ⊢
  rw [e.body hx, e.shapeAttr hx]
  generalize h.body x = b at hX
  cases b with
  | sparse ind a =>
    have hX' : Leaf.sparse (⟨h.shapeAttr x, _⟩ : Sparse K) = .sparse X := hX
    injection hX' with hX'
    exact ⟨_, rfl, by rw [← hX']⟩
  | _ => cases hX

/-- once a dictionary is cached it is kept -/
theorem run_caches_some {d : ℕ → Option K} : ∀ {p : List (MStmt K)} {h h' : Mem K}, h.run p = .ok h' → ∀ {x : ℕ},
    h.caches x = some d → h'.caches x = some d
  | [], h, h', hr, x, hd => by cases hr; exact hd
  | s :: p, h, h', hr, x, hd => by
    obtain ⟨h1, hs, hr⟩ := run_cons hr
    refine run_caches_some hr ?_
    by_cases e : s = .gather x
    · subst e
      simp only [step] at hs
      split_ifs at hs
      split at hs
      · cases hs
        show Function.update h.caches x _ x = _
        rw [Function.update_self, hd]
        rfl
      · cases hs; exact hd
    · rw [step_caches hs x e, hd]

theorem gather_eq {h : Mem K} {x : ℕ} {X : Sparse K} (hX : h.val x = .sparse X) (idxs : List (List ℕ)) :
    h.gather x idxs = idxs.map fun i => ((h.caches x).getD X.dict (ravel X.shape i)).getD 0 := by
  unfold Mem.gather
  rw [hX]

/-- **C77.** Let `z` be a new sparse tensor (from the constructor, `x.T` or `x * c`).  Up to the first call of `z.gather`
it answers with the entries that `z` has at that moment; after it, whatever happens, it answers with the entries that
`z` had at the moment of the first call. -/
theorem C77 (h h1 h2 : Mem K) (hr : h.Reachable) (s : MStmt K) (hs : h.step s = .ok h1) (hz : h.objs.length < h1.objs.length)
    (p : List (MStmt K)) (hp : h1.run p = .ok h2) (hg : .gather h.objs.length ∉ p) (X : Sparse K)
    (hX : h2.val h.objs.length = .sparse X) (idxs : List (List ℕ)) :
    h2.gather h.objs.length idxs = X.gather idxs ∧
      ∀ (h3 h4 : Mem K) (q : List (MStmt K)), h2.step (.gather h.objs.length) = .ok h3 → h3.run q = .ok h4 →
        h4.gather h.objs.length idxs = X.gather idxs := by
  have hO := hr.ok
  have hO1 := step_ok hO hs
  have hO2 := run_ok hO1 hp
  have c1 : h1.caches h.objs.length = none := by
    rw [step_caches hs _ ?_]
    · exact reachable_caches_new hr _ le_rfl
    · rintro rfl
      simp only [step] at hs
      split_ifs at hs
      omega
  have c2 : h2.caches h.objs.length = none := by rw [run_caches_none hp _ hg, c1]
  refine ⟨?_, fun h3 h4 q hs3 hq => ?_⟩
  · rw [gather_eq hX, c2]
    rfl
  · obtain ⟨hx2, c3⟩ := step_gather hs3 hX
    rw [c2] at c3
    have c4 := run_caches_some hq c3
    obtain ⟨X4, hX4, hsh⟩ := run_sparse (p := .gather h.objs.length :: q) (h' := h4) hO2
      (by simp only [run, hs3]; exact hq) hx2 hX
    rw [gather_eq hX4, c4, hsh]
    rfl

/-- **C77, no writes to the entries.** As long as the array of entries (or an array that shares its memory) is not
written to, `gather` agrees with the tensor, also after the first call. -/
theorem C77_current (h h1 h2 h3 h4 : Mem K) (hr : h.Reachable) (s : MStmt K) (hs : h.step s = .ok h1)
    (hz : h.objs.length < h1.objs.length) (p : List (MStmt K)) (hp : h1.run p = .ok h2) (hg : .gather h.objs.length ∉ p)
    (X : Sparse K) (hX : h2.val h.objs.length = .sparse X) (idxs : List (List ℕ))
    (hs3 : h2.step (.gather h.objs.length) = .ok h3) (q : List (MStmt K)) (hq : h3.run q = .ok h4)
    (hm : Mutates (fun _ => True) (fun a => ¬ Uses h2 h.objs.length (h4.arrObj a).buf) q) :
    h4.val h.objs.length = .sparse X ∧ h4.gather h.objs.length idxs = X.gather idxs := by
  refine ⟨?_, (C77 h h1 h2 hr s hs hz p hp hg X hX idxs).2 h3 h4 q hs3 hq⟩
  have hr2 : h2.Reachable := by
    obtain ⟨p0, hp0⟩ := hr
    refine ⟨p0 ++ s :: p, ?_⟩
    have app : ∀ (p q : List (MStmt K)) (a b : Mem K), a.run p = .ok b → a.run (p ++ q) = b.run q := by
      intro p q
      induction p with
      | nil => intro a b hab; cases hab; rfl
      | cons t p ih =>
        intro a b hab
        obtain ⟨c, hc, hab⟩ := run_cons hab
        simp only [List.cons_append, run, hc]
        exact ih c b hab
    rw [app _ _ _ _ hp0]
    simp only [run, hs]
    exact hp
  have hx2 : h.objs.length < h2.objs.length := hz.trans_le (run_pre (step_ok hr.ok hs) hp).objs.length_le
  have e := run_pre hr2.ok (p := .gather h.objs.length :: q) (h' := h4) (by simp only [run, hs3]; exact hq)
  refine (C76_frame h2 h4 hr2 h.objs.length hx2 (.gather h.objs.length :: q)
    (by simp only [run, hs3]; exact hq) fun t ht => ?_).trans hX
  rcases List.mem_cons.1 ht with rfl | ht
  · trivial
  · have := hm t ht
    cases t with
    | setitem y i a =>
      rintro ⟨l, -, hl⟩
      rw [e.body hx2] at hl
      unfold Mem.val at hX
      generalize h2.body h.objs.length = b at hl hX
      cases b <;> first | (cases hl; done) | (cases hX; done)
    | write a i v => exact this
    | _ => trivial

/-! ### examples -/

/-- the array with the entries of a list -/
def vecZ (v : List ℤ) : ND ℤ := ND.ofFn [v.length] fun i => v.getD (i.getD 0 0) 0

/-- **C77, counterexample.** A sparse tensor whose entries are changed after the first `gather`: `gather` still answers
with the old entry, `to_numpy` has the new one. -/
theorem C77_stale : ∃ (h : Mem ℤ) (X : Sparse ℤ),
    Mem.empty.run [.array (vecZ [1]), .sparse [1] [[0]] 0, .gather 0, .write 0 [0] 5] = .ok h ∧
      h.val 0 = .sparse X ∧ X.toNumpy.get [0] = 5 ∧ h.gather 0 [[0]] = [1] := by
  refine ⟨_, _, rfl, rfl, ?_, ?_⟩
  · decide
  · decide

/-- a `2 × 1` factor -/
def fac (a b : ℤ) : ND ℤ := ND.ofFn [2, 1] fun i => if i.getD 0 0 = 0 then a else b

/-- a `1 × n × 1` core -/
def core1 (n : ℕ) (a : ℤ) : ND ℤ := ND.ofFn [1, n, 1] fun i => a + (i.getD 1 0 : ℕ)

/-- entry `i` of what tensor object `x` is now -/
def entry (h : Mem ℤ) (x : ℕ) (i : List ℕ) : ℤ := (h.val x).toNumpy.get i

/-- a CP tensor `x` (object 0) and `x * 3` (object 1) -/
def cpProg : List (MStmt ℤ) := [.array (fac 1 2), .array (fac 1 1), .list [0, 1], .cp 0, .mul 0 3]

/-- **C76, counterexample.** A scaled CP tensor shares all arrays but the first: writing to `x.cores[1]` changes `x * 3`
too. -/
theorem C76_cp_shared : ∃ h h' : Mem ℤ, Mem.empty.run cpProg = .ok h ∧ h.step (.write 1 [0, 0] 10) = .ok h' ∧
    entry h 1 [1, 0] = 6 ∧ entry h' 1 [1, 0] = 60 ∧ entry h' 0 [1, 0] = 20 := by
  refine ⟨_, _, rfl, rfl, ?_, ?_, ?_⟩ <;> decide

/-- a Tucker tensor `x` (object 0) and `x * 3` (object 1) -/
def tuckerProg : List (MStmt ℤ) :=
  [.array (ND.ofFn [1, 2] fun i => 1 + (i.getD 1 0 : ℕ)), .array (vecZ [1]), .list [0], .tucker 0 1, .mul 0 3,
    .array (ND.ofFn [1, 2] fun _ => 10)]

/-- **C76, counterexample.** A scaled Tucker tensor has the same list of factors: `x.factors[0] = a` changes `x * 3` too. -/
theorem C76_tucker_changes : ∃ h h' : Mem ℤ, Mem.empty.run tuckerProg = .ok h ∧ h.step (.setitem 0 0 3) = .ok h' ∧
    entry h 1 [1] = 6 ∧ entry h' 1 [1] = 30 := by
  refine ⟨_, _, rfl, rfl, ?_, ?_⟩ <;> decide

/-- a tensor train `x` (object 0), `x.T` (object 1) and `x * 3` (object 2), and an array of another shape (6) -/
def ttProg : List (MStmt ℤ) :=
  [.array (core1 2 1), .array (core1 3 5), .list [0, 1], .tt 0, .T 0, .mul 0 3, .array (core1 4 7)]

/-- **C76, counterexample.** An item assignment `x[0] = a` leaves the attribute `shape` of `x` as it was, even if the
new core has another shape, and does not change `x.T`. -/
theorem C76_stale_shape : ∃ h h' : Mem ℤ, Mem.empty.run ttProg = .ok h ∧ h.step (.setitem 0 0 7) = .ok h' ∧
    h'.shapeAttr 0 = [2, 3] ∧ (h'.val 0).shape = [4, 3] ∧ (h'.val 1).shape = [3, 2] ∧ h'.val 1 ≠ (h'.val 0).T := by
  refine ⟨_, _, rfl, rfl, by decide, by decide, by decide, fun e => ?_⟩
  have := congrArg Leaf.shape e
  revert this
  decide

/-- `C76_view`, `C76_copy`, `C76_frame`: a write to a core of `x` changes `x.T` along, and not `x * 3`. -/
example : ∃ h h' : Mem ℤ, Mem.empty.run ttProg = .ok h ∧ h.Reachable ∧ h.run [.write 1 [0, 2, 0] 9] = .ok h' ∧
    entry h 0 [1, 2] = 14 ∧ entry h 1 [2, 1] = 14 ∧ entry h 2 [1, 2] = 42 ∧
    entry h' 0 [1, 2] = 18 ∧ entry h' 1 [2, 1] = 18 ∧ entry h' 2 [1, 2] = 42 := by
  refine ⟨_, _, rfl, ⟨ttProg, rfl⟩, rfl, ?_, ?_, ?_, ?_, ?_, ?_⟩ <;> decide

/-- `C76_shape`: a program that keeps shapes, with an item assignment -/
example : ∃ h : Mem ℤ, Mem.empty.run (ttProg ++ [.setitem 0 0 2]) = .ok h ∧
    (Mem.empty : Mem ℤ).KeepsShapes [.array (core1 2 1), .array (core1 2 3), .list [0, 0], .tt 0, .setitem 0 1 1] := by
  refine ⟨_, rfl, trivial, trivial, trivial, trivial, ?_, trivial⟩
  intro l hl
  cases hl
  decide

/-- `C77` and `C77_current`: a sparse tensor, transposed; a `gather`, then a write elsewhere -/
example : ∃ h h1 h2 h3 h4 : Mem ℤ,
    Mem.empty.run [.array (vecZ [4, 5]), .sparse [2, 2] [[0, 1], [1, 1]] 0] = .ok h ∧
    h.step (.T 0) = .ok h1 ∧ h.objs.length < h1.objs.length ∧ h1.run [.gather 0, .write 0 [1] 6] = .ok h2 ∧
    h2.step (.gather 1) = .ok h3 ∧ h3.run [.array (vecZ [1]), .write 1 [0] 2] = .ok h4 ∧
    h2.gather 1 [[1, 0], [1, 1]] = [4, 6] ∧ h4.gather 1 [[1, 0], [1, 1]] = [4, 6] ∧ h2.gather 0 [[0, 1], [1, 1]] = [4, 5] := by
  refine ⟨_, _, _, _, _, rfl, rfl, by decide, rfl, rfl, rfl, ?_, ?_, ?_⟩ <;> decide

end TTS.Props
