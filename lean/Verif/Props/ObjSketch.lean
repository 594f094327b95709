import Verif.Props.Objects

/-!
# C83: sketching nested sums

A nested lazy sum is sketched like the sum of all its basic tensors, and objects that contain a sketch are rejected.
-/

namespace TTS.Props

open TTS Finset

variable {K : Type*} [CommRing K]

/-! ### Calls that return the same -/

theorem _root_.TTS.SameOk.rfl' {α : Type*} (x : Except PyErr α) : SameOk x x := fun _ => Iff.rfl

theorem _root_.TTS.SameOk.of_eq {α : Type*} {x y : Except PyErr α} (h : x = y) : SameOk x y := h ▸ SameOk.rfl' x

theorem _root_.TTS.SameOk.andThen {α β : Type*} {x y : Except PyErr α} {f g : α → Except PyErr β} (h : SameOk x y)
    (hf : ∀ a, x = .ok a → SameOk (f a) (g a)) : SameOk (x.andThen f) (y.andThen g) := by
  intro b
  constructor
  · intro hb
    obtain ⟨a, h1, h2⟩ := andThen_ok hb
    rw [(h a).1 h1]
    exact (hf a h1 b).1 h2
  · intro hb
    obtain ⟨a, h1, h2⟩ := andThen_ok hb
    have h3 := (h a).2 h1
    rw [h3]
    exact (hf a h3 b).2 h2

theorem _root_.TTS.SameOk.foldlM {α β : Type*} {f g : β → α → Except PyErr β} :
    ∀ {l : List α}, (∀ x ∈ l, ∀ b, SameOk (f b x) (g b x)) → ∀ b, SameOk (l.foldlM f b) (l.foldlM g b)
  | [], _, b => SameOk.rfl' _
  | x :: l, h, b => by
    have : ∀ f : β → α → Except PyErr β, (x :: l).foldlM f b = (f b x).andThen fun c => l.foldlM f c := by
      intro f
      rw [List.foldlM_cons]
      cases f b x <;> rfl
    rw [this, this]
    exact SameOk.andThen (h x (by simp) b) fun c _ => SameOk.foldlM (fun y hy => h y (by simp [hy])) c

/-! ### Adding up arrays -/

/-- One step of the loops: compute a summand and add it. -/
def addStep {α : Type*} (f : α → Except PyErr (ND K)) (Z : ND K) (x : α) : Except PyErr (ND K) := (f x).andThen Z.iadd

theorem iadd_ok {A B : ND K} (h : A.shape = B.shape) : A.iadd B = .ok (A.add B) := if_pos h

theorem iadd_err {A B : ND K} (h : A.shape ≠ B.shape) : A.iadd B = .error .valueError := if_neg h

theorem nd_add_assoc (A B C : ND K) (h : A.shape = B.shape) (h' : B.shape = C.shape) :
    (A.add B).add C = A.add (B.add C) :=
  ND.ext' rfl fun i _ => by
    rw [ND.add_get (A.add B) C (h.trans h'), ND.add_get A B h, ND.add_get A (B.add C) h, ND.add_get B C h', add_assoc]

theorem nd_add_zeros (A : ND K) : A.add (ND.zeros A.shape) = A :=
  ND.ext' rfl fun i _ => by rw [ND.add_get A (ND.zeros A.shape) rfl, ND.zeros_get, add_zero]

/-- Adding to `Z` one after the other is adding the total. -/
theorem addStep_add {α : Type*} (f : α → Except PyErr (ND K)) : ∀ (l : List α) (Z W : ND K), Z.shape = W.shape →
    l.foldlM (addStep f) (Z.add W) = (l.foldlM (addStep f) W).andThen Z.iadd
  | [], Z, W, h => (iadd_ok h).symm
  | x :: l, Z, W, h => by
    rw [List.foldlM_cons, List.foldlM_cons]
    unfold addStep
    cases f x with
    | error e => rfl
    | ok Q =>
      simp only [Except.andThen]
      by_cases hq : W.shape = Q.shape
      · rw [iadd_ok hq, iadd_ok (show (Z.add W).shape = Q.shape from h.trans hq), nd_add_assoc _ _ _ h hq]
        exact addStep_add f l Z (W.add Q) h
      · rw [iadd_err hq, iadd_err (show (Z.add W).shape ≠ Q.shape from fun e => hq (h.symm.trans e))]
        rfl

theorem addStep_zeros {α : Type*} (f : α → Except PyErr (ND K)) (l : List α) (Z : ND K) :
    l.foldlM (addStep f) Z = (l.foldlM (addStep f) (ND.zeros Z.shape)).andThen Z.iadd := by
  have := addStep_add f l Z (ND.zeros Z.shape) rfl
  rwa [nd_add_zeros] at this

/-! ### Nested tuples -/

mutual
/-- The entries of nested tuples, from left to right. -/
def flat {α : Type*} : Tree α → List α
  | .one a => [a]
  | .many ts => flatL ts

/-- The entries of a list of nested tuples. -/
def flatL {α : Type*} : List (Tree α) → List α
  | [] => []
  | t :: ts => flat t ++ flatL ts
end

mutual
/-- The tuples are nested like the sums (and there is no sketch). -/
def Fits {α : Type*} : Obj K → Tree α → Prop
  | .atom (.leaf _), .one _ => True
  | .sum _ ts, .many cs => FitsL ts cs
  | _, _ => False

/-- The same for lists. -/
def FitsL {α : Type*} : List (Obj K) → List (Tree α) → Prop
  | [], [] => True
  | t :: ts, c :: cs => Fits t c ∧ FitsL ts cs
  | _, _ => False
end

theorem fits_len {α : Type*} {X : Obj K} : ∀ {c : Tree α}, Fits X c → (flat c).length = X.leaves.length := by
  induction X using Obj.induct with
  | atom A =>
    intro c h
    match A, c, h with
    | .leaf X, .one a, _ => rfl
  | sum s ts ih =>
    intro c h
    cases c with
    | one a => exact absurd h (by simp [Fits])
    | many cs =>
      simp only [Fits] at h
      show (flatL cs).length = (Obj.leavesL ts).length
      induction ts generalizing cs with
      | nil => match cs, h with | [], _ => rfl
      | cons t ts iht =>
        match cs, h with
        | c :: cs, h =>
          simp only [flatL, Obj.leavesL, List.length_append]
          rw [ih t (by simp) h.1, iht (fun t ht => ih t (by simp [ht])) cs h.2]

theorem flat_map {α β : Type*} (f : α → β) : ∀ c : Tree α, flat (c.map f) = (flat c).map f :=
  Tree.rec (motive_1 := fun c => flat (c.map f) = (flat c).map f)
    (motive_2 := fun cs => flatL (Tree.mapL f cs) = (flatL cs).map f)
    (fun a => rfl) (fun ts h => by simpa only [Tree.map, flat] using h) rfl
    (fun t ts h1 h2 => by simp only [Tree.mapL, flatL, h1, h2, List.map_append])

theorem fits_map {α β : Type*} (f : α → β) {X : Obj K} : ∀ {c : Tree α}, Fits X c → Fits X (c.map f) := by
  induction X using Obj.induct with
  | atom A =>
    intro c h
    match A, c, h with
    | .leaf X, .one a, _ => trivial
  | sum s ts ih =>
    intro c h
    cases c with
    | one a => exact absurd h (by simp [Fits])
    | many cs =>
      simp only [Fits] at h
      simp only [Tree.map, Fits]
      induction ts generalizing cs with
      | nil => match cs, h with | [], _ => trivial
      | cons t ts iht =>
        match cs, h with
        | c :: cs, h => exact ⟨ih t (by simp) h.1, iht (fun t ht => ih t (by simp [ht])) cs h.2⟩

theorem flat_pick (c : Tree (List (ND K))) (mu : ℕ) : flat (c.pick mu) = pick (flat c) mu := flat_map _ c

/-! ### Contractions -/

theorem sketch_supports {env : Env K} {D : DRM K} {X : Leaf K} {l : List (ND K)} (h : D.sketch env X = .ok l) :
    D.data.supports X = true := by
  unfold DRM.sketch at h
  split_ifs at h with h1
  all_goals simpa using h1

theorem mapM_cons_andThen {α β : Type*} (f : α → Except PyErr β) (x : α) (l : List α) :
    (x :: l).mapM f = (f x).andThen fun y => (l.mapM f).map fun ys => y :: ys := by
  rw [List.mapM_cons]
  cases f x with
  | error e => rfl
  | ok y => cases l.mapM f <;> rfl

theorem mapM_append_ok {α β : Type*} {f : α → Except PyErr β} : ∀ {l : List α} {m : List α} {a b : List β},
    l.mapM f = .ok a → m.mapM f = .ok b → (l ++ m).mapM f = .ok (a ++ b)
  | [], m, a, b, h1, h2 => by
    have : a = [] := by
      have h1 : Except.ok [] = Except.ok a := h1
      injection h1 with h1; exact h1.symm
    subst this; exact h2
  | x :: l, m, a, b, h1, h2 => by
    rw [mapM_cons_andThen] at h1
    obtain ⟨y, h3, h4⟩ := andThen_ok h1
    cases h5 : l.mapM f with
    | error e => rw [h5] at h4; cases h4
    | ok ys =>
      rw [h5] at h4
      have h4 : Except.ok (y :: ys) = Except.ok a := h4
      injection h4 with h4
      subst h4
      rw [List.cons_append, mapM_cons_andThen, h3, mapM_append_ok h5 h2]
      rfl

theorem mapM_append_split {α β : Type*} {f : α → Except PyErr β} : ∀ {l : List α} {m : List α} {c : List β},
    (l ++ m).mapM f = .ok c → ∃ a b, l.mapM f = .ok a ∧ m.mapM f = .ok b ∧ c = a ++ b
  | [], m, c, h => ⟨[], c, rfl, h, rfl⟩
  | x :: l, m, c, h => by
    rw [List.cons_append, mapM_cons_andThen] at h
    obtain ⟨y, h3, h4⟩ := andThen_ok h
    cases h5 : (l ++ m).mapM f with
    | error e => rw [h5] at h4; cases h4
    | ok ys =>
      rw [h5] at h4
      have h4 : Except.ok (y :: ys) = Except.ok c := h4
      injection h4 with h4
      obtain ⟨a, b, h6, h7, h8⟩ := mapM_append_split h5
      exact ⟨y :: a, b, by rw [mapM_cons_andThen, h3, h6]; rfl, h7, by rw [← h4, h8]; rfl⟩

theorem contrL_ok {env : Env K} {D : DRM K} {t : Obj K} {ts : List (Obj K)} {cs : List (Tree (List (ND K)))}
    (h : Obj.contrL env D (t :: ts) = .ok cs) : ∃ c cs', t.contr env D = .ok c ∧ Obj.contrL env D ts = .ok cs' ∧
      cs = c :: cs' := by
  simp only [Obj.contrL] at h
  obtain ⟨c, h1, h2⟩ := andThen_ok h
  cases h3 : Obj.contrL env D ts with
  | error e => rw [h3] at h2; cases h2
  | ok cs' =>
    rw [h3] at h2
    have h2 : Except.ok (c :: cs') = Except.ok cs := h2
    injection h2 with h2
    exact ⟨c, cs', h1, rfl, h2.symm⟩

/-- If the DRM contracts an object it contains no sketch, and the contractions are those of its basic tensors. -/
theorem contr_ok {env : Env K} {D : DRM K} {X : Obj K} : ∀ {c : Tree (List (ND K))}, X.contr env D = .ok c →
    Fits X c ∧ X.sketches = [] ∧ X.leaves.mapM (D.sketch env) = .ok (flat c) ∧ ∀ t ∈ X.leaves, D.data.supports t = true := by
  induction X using Obj.induct with
  | atom A =>
    intro c h
    cases A with
    | leaf X =>
      cases h1 : D.sketch env X with
      | error e => simp only [Obj.contr, h1] at h; cases h
      | ok l =>
        simp only [Obj.contr, h1] at h
        have h : Except.ok (Tree.one l) = Except.ok c := h
        injection h with h
        subst h
        refine ⟨trivial, rfl, ?_, ?_⟩
        · show [X].mapM _ = _
          rw [mapM_cons_andThen, h1]; rfl
        · intro t ht
          simp only [Obj.leaves, List.mem_singleton] at ht
          subst ht
          exact sketch_supports h1
    | sketched S => simp only [Obj.contr] at h; cases h
  | sum s ts ih =>
    intro c h
    simp only [Obj.contr] at h
    obtain ⟨-, -, h'⟩ := andThen_ok h
    clear h
    rename' h' => h
    cases h1 : Obj.contrL env D ts with
    | error e => rw [h1] at h; cases h
    | ok cs =>
      rw [h1] at h
      replace h : Except.ok (Tree.many cs) = Except.ok c := h
      injection h with h
      subst h
      simp only [Fits, Obj.sketches, Obj.leaves, flat]
      induction ts generalizing cs with
      | nil =>
        have h1 : Except.ok [] = Except.ok cs := h1
        injection h1 with h1
        subst h1
        exact ⟨trivial, rfl, rfl, by simp [Obj.leavesL]⟩
      | cons t ts iht =>
        obtain ⟨c, cs', h2, h3, rfl⟩ := contrL_ok h1
        obtain ⟨a1, a2, a3, a4⟩ := ih t (by simp) h2
        obtain ⟨b1, b2, b3, b4⟩ := iht (fun t ht => ih t (by simp [ht])) cs' h3
        refine ⟨⟨a1, b1⟩, by simp only [Obj.sketchesL, a2, b2]; rfl, by simp only [Obj.leavesL, flatL]; exact mapM_append_ok a3 b3,
          fun u hu => ?_⟩
        simp only [Obj.leavesL, List.mem_append] at hu
        exact hu.elim (a4 u) (b4 u)

theorem sketchMethod_ok {D : DRM K} {X : Obj K} (h : X.sketches = []) (hs : ∀ t ∈ X.leaves, D.data.supports t = true) :
    X.sketchMethod D = .ok () := by
  match X, h, hs with
  | .atom (.leaf X), _, hs => exact if_pos (hs X (by simp [Obj.leaves]))
  | .sum _ _, _, _ => rfl
  | .atom (.sketched S), h, _ => simp [Obj.sketches] at h

theorem forM_ok {α : Type*} {f : α → Except PyErr Unit} : ∀ {l : List α}, (∀ x ∈ l, f x = .ok ()) → l.forM f = .ok ()
  | [], _ => rfl
  | x :: l, h => by
    show (f x >>= fun _ => l.forM f) = _
    rw [h x (by simp), forM_ok fun y hy => h y (by simp [hy])]; rfl

/-- If it can contract all basic tensors of an object without sketches, it can contract the object. -/
theorem contr_of {env : Env K} {D : DRM K} {X : Obj K} : ∀ {L : List (List (ND K))}, X.sketches = [] →
    X.leaves.mapM (D.sketch env) = .ok L → ∃ c, X.contr env D = .ok c ∧ flat c = L := by
  induction X using Obj.induct with
  | atom A =>
    intro L h1 h2
    cases A with
    | leaf X =>
      change [X].mapM _ = _ at h2
      rw [mapM_cons_andThen] at h2
      obtain ⟨l, h3, h4⟩ := andThen_ok h2
      have h4 : Except.ok [l] = Except.ok L := h4
      injection h4 with h4
      exact ⟨.one l, by simp only [Obj.contr, h3]; rfl, h4⟩
    | sketched S => simp [Obj.sketches] at h1
  | sum s ts ih =>
    intro L h1 h2
    simp only [Obj.sketches, Obj.leaves] at h1 h2
    have key : ∃ cs, Obj.contrL env D ts = .ok cs ∧ flatL cs = L := by
      induction ts generalizing L with
      | nil =>
        have h2 : Except.ok [] = Except.ok L := h2
        injection h2 with h2
        exact ⟨[], rfl, h2⟩
      | cons t ts iht =>
        simp only [Obj.sketchesL, List.append_eq_nil_iff] at h1
        simp only [Obj.leavesL] at h2
        obtain ⟨a, b, h3, h4, rfl⟩ := mapM_append_split h2
        obtain ⟨c, c1, c2⟩ := ih t (by simp) h1.1 h3
        obtain ⟨cs, c3, c4⟩ := iht (fun t ht => ih t (by simp [ht])) h1.2 h4
        exact ⟨c :: cs, by simp only [Obj.contrL, c1, c3]; rfl, by simp only [flatL, c2, c4]⟩
    obtain ⟨cs, h3, h4⟩ := key
    refine ⟨.many cs, ?_, h4⟩
    have : ts.forM (Obj.sketchMethod D) = .ok () := by
      refine forM_ok fun t ht => ?_
      rw [sketchesL_eq, List.flatMap_eq_nil_iff] at h1
      refine sketchMethod_ok (h1 t ht) fun u hu => ?_
      obtain ⟨e1, e2⟩ := mapM_ok_iff h2
      have hu' : u ∈ Obj.leavesL ts := by rw [leavesL_eq]; exact List.mem_flatMap.2 ⟨t, ht, hu⟩
      obtain ⟨k, hk, rfl⟩ := List.getElem_of_mem hu'
      exact sketch_supports (e2 k hk (by omega))
    simp only [Obj.contr, this, h3]
    rfl

theorem contr_flatten_leaves {env : Env K} {D : DRM K} {X : Obj K} {L : List (List (ND K))} (h : X.sketches = []) :
    D.contr env X.flatten = .ok L ↔ X.leaves.mapM (D.sketch env) = .ok L := by
  match X, h with
  | .atom (.leaf X), _ =>
    show (D.sketch env X).map _ = _ ↔ [X].mapM _ = _
    rw [mapM_cons_andThen]
    cases D.sketch env X with
    | error e => exact Iff.rfl
    | ok l => exact Iff.rfl
  | .atom (.sketched S), h => simp [Obj.sketches] at h
  | .sum s ts, _ =>
    show (if (Obj.leavesL ts).all _ then _ else _) = _ ↔ (Obj.leavesL ts).mapM _ = _
    split_ifs with hs
    · exact Iff.rfl
    · constructor
      · intro h; cases h
      · intro h
        refine absurd (List.all_eq_true.2 fun u hu => ?_) hs
        obtain ⟨e1, e2⟩ := mapM_ok_iff h
        obtain ⟨k, hk, rfl⟩ := List.getElem_of_mem hu
        exact sketch_supports (e2 k hk (by omega))

theorem contr_same {env : Env K} {D : DRM K} {X : Obj K} (h : X.sketches = []) :
    SameOk ((X.contr env D).map flat) (D.contr env X.flatten) := by
  intro L
  rw [contr_flatten_leaves h]
  constructor
  · intro h1
    cases h2 : X.contr env D with
    | error e => rw [h2] at h1; cases h1
    | ok c =>
      rw [h2] at h1
      replace h1 : Except.ok (flat c) = Except.ok L := h1
      injection h1 with h1
      rw [← h1]
      exact (contr_ok h2).2.2.1
  · intro h1
    obtain ⟨c, h2, h3⟩ := contr_of h h1
    rw [h2, ← h3]; rfl

theorem flatten_shape {X : Obj K} (h : X.sketches = []) : X.flatten.shape = X.shape := by
  match X, h with
  | .atom (.leaf X), _ => rfl
  | .atom (.sketched S), h => simp [Obj.sketches] at h
  | .sum s ts, _ => rfl

theorem flatten_summands {X : Obj K} (h : X.sketches = []) : X.flatten.summands = X.leaves := by
  match X, h with
  | .atom (.leaf X), _ => rfl
  | .atom (.sketched S), h => simp [Obj.sketches] at h
  | .sum s ts, _ => rfl

/-! ### Omega matrices -/

/-- The loop over the leaves for Omega. -/
def omStep (mu : ℕ) (t : Leaf K × ND K × ND K) : Except PyErr (ND K) := .ok (omegaLeaf t.1 mu t.2.1 t.2.2)

theorem zip3_append {α β γ : Type*} {a a' : List α} {b b' : List β} {c c' : List γ} (h1 : b.length = a.length)
    (h2 : c.length = a.length) : (a ++ a').zip ((b ++ b').zip (c ++ c')) = a.zip (b.zip c) ++ a'.zip (b'.zip c') := by
  rw [List.zip_append (by omega), List.zip_append (by rw [List.length_zip]; omega)]

/-- Adding the Omega matrix of `X` is adding those of its basic tensors. -/
def OmegaAdds (mu : ℕ) (sh : List ℕ) (X : Obj K) : Prop := ∀ l r : Tree (ND K), Fits X l → Fits X r →
    ∀ Z : ND K, Z.shape = sh → (X.omega mu sh l r).andThen Z.iadd
      = (X.leaves.zip ((flat l).zip (flat r))).foldlM (addStep (omStep mu)) Z

theorem omegaLoop_flat {mu : ℕ} {sh : List ℕ} : ∀ {ts : List (Obj K)} {ls rs : List (Tree (ND K))},
    (∀ t ∈ ts, OmegaAdds mu sh t) → FitsL ts ls → FitsL ts rs → ∀ W : ND K, W.shape = sh →
    Obj.omegaLoop mu sh W ts ls rs
      = ((Obj.leavesL ts).zip ((flatL ls).zip (flatL rs))).foldlM (addStep (omStep mu)) W
  | [], ls, rs, _, hl, hr, W, _ => by
    simp only [Obj.leavesL, List.zip_nil_left]
    cases ls <;> cases rs <;> rfl
  | t :: ts, l :: ls, r :: rs, h, hl, hr, W, hW => by
    simp only [Obj.omegaLoop, Obj.leavesL, flatL]
    rw [zip3_append (fits_len hl.1) (fits_len hr.1), List.foldlM_append, ← h t (by simp) l r hl.1 hr.1 W hW]
    cases t.omega mu sh l r with
    | error e => rfl
    | ok O =>
      show (W.iadd O).andThen _ = (W.iadd O) >>= _
      by_cases hO : W.shape = O.shape
      · rw [iadd_ok hO]
        exact omegaLoop_flat (fun t ht => h t (by simp [ht])) hl.2 hr.2 _ hW
      · rw [iadd_err hO]; rfl

theorem omega_adds (mu : ℕ) (sh : List ℕ) (X : Obj K) : OmegaAdds mu sh X := by
  induction X using Obj.induct with
  | atom A =>
    intro l r hl hr Z hZ
    match A, l, r, hl, hr with
    | .leaf X, .one l, .one r, _, _ =>
      show Z.iadd (omegaLeaf X mu l r) = [(X, l, r)].foldlM _ Z
      rw [List.foldlM_cons]
      show _ = (Z.iadd (omegaLeaf X mu l r) >>= fun a => .ok a)
      cases Z.iadd (omegaLeaf X mu l r) <;> rfl
  | sum s ts ih =>
    intro l r hl hr Z hZ
    match l, r, hl, hr with
    | .many ls, .many rs, hl, hr =>
      show (Obj.omegaLoop mu sh (ND.zeros sh) ts ls rs).andThen Z.iadd = _
      rw [omegaLoop_flat ih hl hr _ rfl]
      subst hZ
      exact (addStep_zeros _ _ Z).symm

/-- The Omega matrices of a nested sum. -/
theorem omega_flat {mu : ℕ} {sh : List ℕ} {X : Obj K} {l r : Tree (ND K)} (hl : Fits X l) (hr : Fits X r) :
    X.omega mu sh l r = omegaT X.flatten mu sh (flat l) (flat r) := by
  match X, l, r, hl, hr with
  | .atom (.leaf X), .one l, .one r, _, _ => rfl
  | .sum s ts, .many ls, .many rs, hl, hr => exact omegaLoop_flat (fun t _ => omega_adds mu sh t) hl hr _ rfl

/-! ### Psi cores -/

/-- The loop over the leaves for Psi. -/
def psStep (mu : ℕ) (sh : List ℕ) (t : Leaf K × Option (ND K) × Option (ND K)) : Except PyErr (ND K) :=
  psiLeaf t.1 mu sh t.2.1 t.2.2

/-- Missing contractions fit everything. -/
def FitsO {α : Type*} (X : Obj K) : Option (Tree α) → Prop
  | none => True
  | some c => Fits X c

/-- One contraction for every leaf. -/
def flatO {α : Type*} (X : Obj K) : Option (Tree α) → List (Option α)
  | none => List.replicate X.leaves.length none
  | some c => (flat c).map some

theorem flatO_len {α : Type*} {X : Obj K} {c : Option (Tree α)} (h : FitsO X c) : (flatO X c).length = X.leaves.length := by
  match c, h with
  | none, _ => simp [flatO]
  | some c, h => simp [flatO, fits_len h]

/-- The same for lists. -/
def FitsOL {α : Type*} : List (Obj K) → List (Option (Tree α)) → Prop
  | [], [] => True
  | t :: ts, c :: cs => FitsO t c ∧ FitsOL ts cs
  | _, _ => False

/-- The same for lists. -/
def flatOL {α : Type*} : List (Obj K) → List (Option (Tree α)) → List (Option α)
  | t :: ts, c :: cs => flatO t c ++ flatOL ts cs
  | _, _ => []

theorem fitsOL_none {α : Type*} : ∀ ts : List (Obj K), FitsOL ts (List.replicate ts.length (none : Option (Tree α)))
  | [] => trivial
  | _ :: ts => ⟨trivial, fitsOL_none ts⟩

theorem fitsOL_some {α : Type*} : ∀ {ts : List (Obj K)} {cs : List (Tree α)}, FitsL ts cs → FitsOL ts (cs.map some)
  | [], [], _ => trivial
  | _ :: _, _ :: _, h => ⟨h.1, fitsOL_some h.2⟩

theorem flatOL_none {α : Type*} : ∀ ts : List (Obj K), flatOL ts (List.replicate ts.length (none : Option (Tree α)))
    = List.replicate (Obj.leavesL ts).length none
  | [] => rfl
  | t :: ts => by
    show flatO t none ++ flatOL ts _ = _
    rw [flatOL_none ts, Obj.leavesL, List.length_append, List.replicate_add]; rfl

theorem flatOL_some {α : Type*} : ∀ {ts : List (Obj K)} {cs : List (Tree α)}, FitsL ts cs →
    flatOL ts (cs.map some) = (flatL cs).map some
  | [], [], _ => rfl
  | t :: ts, c :: cs, h => by
    show flatO t (some c) ++ flatOL ts (cs.map some) = _
    rw [flatOL_some h.2, flatL, List.map_append]; rfl

/-- `sketch_dispatch.py` 120-123 for fitting tuples. -/
theorem arrays_fit {α : Type*} {s : List ℕ} {ts : List (Obj K)} {c : Option (Tree α)} (h : FitsO (.sum s ts) c) :
    ∃ cs, Tree.arrays ts.length c = .ok cs ∧ FitsOL ts cs ∧ flatOL ts cs = flatO (.sum s ts) c := by
  match c, h with
  | none, _ => exact ⟨_, rfl, fitsOL_none ts, flatOL_none ts⟩
  | some (.many cs), h => exact ⟨_, rfl, fitsOL_some h, flatOL_some h⟩

/-- Adding the Psi core of `X` is adding those of its basic tensors. -/
def PsiAdds (mu : ℕ) (sh : List ℕ) (X : Obj K) : Prop := X.sketches = [] → ∀ l r : Option (Tree (ND K)), FitsO X l →
    FitsO X r → ∀ Z : ND K, Z.shape = sh → (X.psi mu sh l r).andThen Z.iadd
      = (X.leaves.zip ((flatO X l).zip (flatO X r))).foldlM (addStep (psStep mu sh)) Z

theorem psiLoop_flat {mu : ℕ} {sh : List ℕ} : ∀ {ts : List (Obj K)} {ls rs : List (Option (Tree (ND K)))},
    (∀ t ∈ ts, PsiAdds mu sh t) → Obj.sketchesL ts = [] → FitsOL ts ls → FitsOL ts rs → ∀ W : ND K, W.shape = sh →
    Obj.psiLoop mu sh W ts ls rs
      = ((Obj.leavesL ts).zip ((flatOL ts ls).zip (flatOL ts rs))).foldlM (addStep (psStep mu sh)) W
  | [], ls, rs, _, _, hl, hr, W, _ => by
    simp only [Obj.leavesL, List.zip_nil_left]
    cases ls <;> cases rs <;> rfl
  | t :: ts, l :: ls, r :: rs, h, hs, hl, hr, W, hW => by
    simp only [Obj.sketchesL, List.append_eq_nil_iff] at hs
    simp only [Obj.psiLoop, Obj.leavesL, flatOL]
    rw [zip3_append (flatO_len hl.1) (flatO_len hr.1), List.foldlM_append, ← h t (by simp) hs.1 l r hl.1 hr.1 W hW]
    cases t.psi mu sh l r with
    | error e => rfl
    | ok O =>
      show (W.iadd O).andThen _ = (W.iadd O) >>= _
      by_cases hO : W.shape = O.shape
      · rw [iadd_ok hO]
        exact psiLoop_flat (fun t ht => h t (by simp [ht])) hs.2 hl.2 hr.2 _ hW
      · rw [iadd_err hO]; rfl

theorem array_fit {α : Type*} {X : Leaf K} {c : Option (Tree α)} (h : FitsO (.atom (.leaf X)) c) :
    ∃ a, Tree.array c = .ok a ∧ flatO (.atom (.leaf X)) c = [a] := by
  match c, h with
  | none, _ => exact ⟨none, rfl, rfl⟩
  | some (.one a), _ => exact ⟨some a, rfl, rfl⟩

theorem psi_adds (mu : ℕ) (sh : List ℕ) (X : Obj K) : PsiAdds mu sh X := by
  induction X using Obj.induct with
  | atom A =>
    intro hs l r hl hr Z hZ
    match A, hs, hl, hr with
    | .sketched S, hs, _, _ => simp [Obj.sketches] at hs
    | .leaf X, _, hl, hr =>
      obtain ⟨a, a1, a2⟩ := array_fit hl
      obtain ⟨b, b1, b2⟩ := array_fit hr
      rw [a2, b2]
      simp only [Obj.psi, a1, b1, Except.andThen, Obj.leaves]
      show _ = [(X, a, b)].foldlM _ Z
      rw [List.foldlM_cons]
      show _ = ((psiLeaf X mu sh a b).andThen Z.iadd >>= fun a => .ok a)
      cases psiLeaf X mu sh a b with
      | error e => rfl
      | ok P => show Z.iadd P = (Z.iadd P >>= _); cases Z.iadd P <;> rfl
  | sum s ts ih =>
    intro hs l r hl hr Z hZ
    obtain ⟨ls, l1, l2, l3⟩ := arrays_fit hl
    obtain ⟨rs, r1, r2, r3⟩ := arrays_fit hr
    simp only [Obj.psi, l1, r1, Except.andThen]
    rw [psiLoop_flat ih hs l2 r2 _ rfl, l3, r3]
    subst hZ
    exact (addStep_zeros _ _ Z).symm

/-- The Psi cores of a nested sum. -/
theorem psi_flat {mu : ℕ} {sh : List ℕ} {X : Obj K} (hs : X.sketches = []) {l r : Option (Tree (ND K))} (hl : FitsO X l)
    (hr : FitsO X r) : X.psi mu sh l r = psiT X.flatten mu sh (flatO X l) (flatO X r) := by
  match X, hs, hl, hr with
  | .atom (.sketched S), hs, _, _ => simp [Obj.sketches] at hs
  | .atom (.leaf X), _, hl, hr =>
    obtain ⟨a, a1, a2⟩ := array_fit hl
    obtain ⟨b, b1, b2⟩ := array_fit hr
    rw [a2, b2]
    simp only [Obj.psi, a1, b1, Except.andThen]
    rfl
  | .sum s ts, hs, hl, hr =>
    obtain ⟨ls, l1, l2, l3⟩ := arrays_fit hl
    obtain ⟨rs, r1, r2, r3⟩ := arrays_fit hr
    simp only [Obj.psi, l1, r1, Except.andThen]
    rw [psiLoop_flat (fun t _ => psi_adds mu sh t) hs l2 r2 _ rfl, l3, r3]
    show _ = ((Obj.leavesL ts).zip _).foldlM _ _
    refine foldlM_congr (fun x _ b => ?_) _
    unfold addStep psStep
    cases psiLeaf x.1 mu sh x.2.1 x.2.2 <;> rfl

/-! ### The whole sketch -/

theorem fits_pick {X : Obj K} {c : Tree (List (ND K))} (h : Fits X c) (mu : ℕ) : Fits X (c.pick mu) := fits_map _ h

theorem omegas_flat {X : Obj K} (hs : X.sketches = []) {lr rr : List ℕ} {lc rc : Tree (List (ND K))} (hl : Fits X lc)
    (hr : Fits X rc) : X.omegas lr rr lc rc = omegas X.flatten lr rr (flat lc) (flat rc) := by
  unfold Obj.omegas omegas
  rw [flatten_shape hs]
  congr 1
  funext mu
  rw [omega_flat (fits_pick hl mu) (fits_pick hr mu), flat_pick, flat_pick]

theorem psiAt_flat {X : Obj K} (hs : X.sketches = []) {lr rr : List ℕ} {rc : Tree (List (ND K))} (hr : Fits X rc) (mu : ℕ)
    {left : Tree (ND K)} {left' : List (ND K)} (hl : 0 < mu → Fits X left ∧ flat left = left') :
    X.psiAt lr rr rc mu left = psiAt X.flatten lr rr (flat rc) mu left' := by
  unfold Obj.psiAt psiAt
  simp only [flatten_shape hs, Tensor.parts, flatten_summands hs]
  rw [psi_flat hs]
  · congr 1
    · split_ifs with h
      · rw [← (hl h).2]; rfl
      · rfl
    · split_ifs with h
      · rw [← flat_pick]; rfl
      · rfl
  · split_ifs with h
    · exact (hl h).1
    · trivial
  · split_ifs with h
    · exact fits_pick hr mu
    · trivial

theorem psisStream_flat {X : Obj K} (hs : X.sketches = []) {lr rr : List ℕ} {lc rc : Tree (List (ND K))} (hl : Fits X lc)
    (hr : Fits X rc) : X.psisStream lr rr lc rc = psisStream X.flatten lr rr (flat lc) (flat rc) := by
  unfold Obj.psisStream psisStream
  rw [flatten_shape hs]
  congr 1
  funext mu
  exact psiAt_flat hs hr mu fun _ => ⟨fits_pick hl _, flat_pick _ _⟩

theorem match_andThen {α β : Type*} (x : Except PyErr α) (f : α → Except PyErr β) :
    (match x with | .error e => .error e | .ok a => f a) = x.andThen f := by cases x <;> rfl

theorem psiOrthStep_same {env : Env K} {X : Obj K} (hs : X.sketches = []) {lr rr : List ℕ} {om : Option (List (ND K))}
    {rc : Tree (List (ND K))} (hr : Fits X rc) (cores : List (ND K)) (mu : ℕ) :
    SameOk (X.psiOrthStep env lr rr om rc cores mu) (psiOrthStep env X.flatten lr rr om (flat rc) cores mu) := by
  unfold Obj.psiOrthStep psiOrthStep
  rw [flatten_shape hs]
  intro a
  by_cases hmu : 0 < mu
  · simp only [if_pos hmu]
    have hc := contr_same (env := env) (D := orthDRM lr X.shape cores) hs
    cases h1 : X.contr env (orthDRM lr X.shape cores) with
    | error e =>
      rw [h1] at hc
      cases h2 : (orthDRM lr X.shape cores).contr env X.flatten with
      | error e => simp
      | ok L => exact absurd ((hc L).2 h2) (by intro h; cases h)
    | ok c =>
      rw [h1] at hc
      rw [(hc (flat c)).1 rfl]
      have hf := (contr_ok h1).1
      simp only
      rw [psiAt_flat hs hr mu fun _ => ⟨fits_pick hf _, flat_pick _ _⟩]
      generalize psiAt X.flatten lr rr (flat rc) mu (pick (flat c) (mu - 1)) = P
      cases P with
      | error e => exact Iff.rfl
      | ok P =>
        simp only
        split_ifs
        · cases orthStep env P (om.map fun l => l.getD mu (ND.zeros [])) <;> exact Iff.rfl
        · exact Iff.rfl
  · simp only [if_neg hmu]
    rw [psiAt_flat (left' := pick [] (mu - 1)) hs hr mu fun h => absurd h hmu]
    generalize psiAt X.flatten lr rr (flat rc) mu (pick [] (mu - 1)) = P
    cases P with
    | error e => exact Iff.rfl
    | ok P =>
      simp only
      split_ifs
      · cases orthStep env P (om.map fun l => l.getD mu (ND.zeros [])) <;> exact Iff.rfl
      · exact Iff.rfl

theorem psisOrth_same {env : Env K} {X : Obj K} (hs : X.sketches = []) {lr rr : List ℕ} {om : Option (List (ND K))}
    {rc : Tree (List (ND K))} (hr : Fits X rc) :
    SameOk (X.psisOrth env lr rr om rc) (psisOrth env X.flatten lr rr om (flat rc)) := by
  unfold Obj.psisOrth psisOrth
  rw [flatten_shape hs]
  exact SameOk.foldlM (fun mu _ b => psiOrthStep_same hs hr b mu) []

theorem contr_andThen {env : Env K} {D : DRM K} {X : Obj K} (hs : X.sketches = []) {α : Type*}
    {f : Tree (List (ND K)) → Except PyErr α} {g : List (List (ND K)) → Except PyErr α}
    (h : ∀ c, Fits X c → SameOk (f c) (g (flat c))) : SameOk ((X.contr env D).andThen f) ((D.contr env X.flatten).andThen g) := by
  have hc := contr_same (env := env) (D := D) hs
  intro a
  cases h1 : X.contr env D with
  | error e =>
    rw [h1] at hc
    cases h2 : D.contr env X.flatten with
    | error e => exact ⟨fun h => (by cases h), fun h => (by cases h)⟩
    | ok L => exact absurd ((hc L).2 h2) (by intro h; cases h)
  | ok c =>
    rw [h1] at hc
    rw [(hc (flat c)).1 rfl]
    exact h c (contr_ok h1).1 a

/-- **C83.** A (nested) sum without sketches is sketched like the flat sum of its basic tensors, by all three methods. -/
theorem C83 (env : Env K) {X : Obj K} (hs : X.sketches = []) (left : Option (DRM K)) (right : DRM K) (m : Method) :
    SameOk (X.generalSketch env left right m) (generalSketch env X.flatten left right m) := by
  cases m with
  | streaming =>
    cases left with
    | none => exact SameOk.rfl' _
    | some left =>
      refine contr_andThen hs fun lc hl => contr_andThen hs fun rc hr => ?_
      rw [omegas_flat hs hl hr, psisStream_flat hs hl hr]
      exact SameOk.rfl' _
  | orthogonal =>
    cases left with
    | none => exact SameOk.rfl' _
    | some left =>
      refine contr_andThen hs fun lc hl => contr_andThen hs fun rc hr => ?_
      rw [omegas_flat hs hl hr]
      refine (SameOk.rfl' _).andThen fun om _ => (psisOrth_same hs hr).andThen fun psi _ => SameOk.rfl' _
  | hmt =>
    refine contr_andThen hs fun rc hr => ?_
    exact (psisOrth_same hs hr).andThen fun psi _ => SameOk.rfl' _

/-- **C83, `stream_sketch`.** -/
theorem C83_stream (env : Env K) {X : Obj K} (hs : X.sketches = []) (lrank rrank : RankArg) (kw : SketchKw K) (S : Sketched K) :
    X.streamSketch env lrank rrank kw = .ok S ↔ streamSketch env X.flatten lrank rrank kw = .ok S := by
  refine (show SameOk _ _ from ?_) S
  unfold Obj.streamSketch streamSketch
  rw [flatten_shape hs]
  refine (SameOk.rfl' _).andThen fun a _ => (SameOk.rfl' _).andThen fun b _ => ?_
  split_ifs
  · exact SameOk.rfl' _
  · exact (SameOk.rfl' _).andThen fun l _ => (SameOk.rfl' _).andThen fun r _ => (C83 env hs _ _ _).andThen fun s _ =>
      SameOk.rfl' _

/-- **C83, `orthogonal_sketch`.** -/
theorem C83_orthogonal (env : Env K) {X : Obj K} (hs : X.sketches = []) (lrank rrank : RankArg) (kw : SketchKw K)
    (Y : TT K × DRM K × DRM K) :
    X.orthogonalSketch env lrank rrank kw = .ok Y ↔ orthogonalSketch env X.flatten lrank rrank kw = .ok Y := by
  refine (show SameOk _ _ from ?_) Y
  unfold Obj.orthogonalSketch orthogonalSketch
  rw [flatten_shape hs]
  refine (SameOk.rfl' _).andThen fun b _ => ?_
  split_ifs
  · exact SameOk.rfl' _
  · exact (SameOk.rfl' _).andThen fun l _ => (SameOk.rfl' _).andThen fun r _ => (C83 env hs _ _ _).andThen fun s _ =>
      SameOk.rfl' _

/-- **C83, `hmt_sketch`.** -/
theorem C83_hmt (env : Env K) {X : Obj K} (hs : X.sketches = []) (rank : RankArg) (seed : Option ℕ)
    (drmType : Option DRMKind) (drm : Option (DRM K)) (returnDrm : Bool) (Y : TT K) :
    X.hmtSketch env rank seed drmType drm returnDrm = .ok Y ↔ hmtSketch env X.flatten rank seed drmType drm returnDrm = .ok Y := by
  refine (show SameOk _ _ from ?_) Y
  unfold Obj.hmtSketch hmtSketch
  rw [flatten_shape hs]
  exact (SameOk.rfl' _).andThen fun l _ => (C83 env hs _ _ _).andThen fun s _ => SameOk.rfl' _

/-- **C83, rejection.** No method sketches an object that is or contains a sketch: all calls raise. -/
theorem C83_reject (env : Env K) {X : Obj K} (hs : X.sketches ≠ []) (left : Option (DRM K)) (right : DRM K) (m : Method) :
    ∃ e, X.generalSketch env left right m = .error e := by
  have key : ∀ D : DRM K, ∃ e, X.contr env D = .error e := by
    intro D
    cases h : X.contr env D with
    | error e => exact ⟨e, rfl⟩
    | ok c => exact absurd (contr_ok h).2.1 hs
  cases m with
  | hmt =>
    obtain ⟨e, he⟩ := key right
    exact ⟨e, by simp only [Obj.generalSketch, he]; rfl⟩
  | streaming =>
    cases left with
    | none => exact ⟨_, rfl⟩
    | some left =>
      obtain ⟨e, he⟩ := key left
      exact ⟨e, by simp only [Obj.generalSketch, he]; rfl⟩
  | orthogonal =>
    cases left with
    | none => exact ⟨_, rfl⟩
    | some left =>
      obtain ⟨e, he⟩ := key left
      exact ⟨e, by simp only [Obj.generalSketch, he]; rfl⟩

theorem contr_of_each {env : Env K} {D : DRM K} {X : Obj K} (hs : X.sketches = [])
    (hl : ∀ t ∈ X.leaves, ∃ l, D.sketch env t = .ok l) : ∃ c, X.contr env D = .ok c := by
  have : ∀ {l : List (Leaf K)}, (∀ t ∈ l, ∃ y, D.sketch env t = .ok y) → ∃ L, l.mapM (D.sketch env) = .ok L := by
    intro l
    induction l with
    | nil => exact fun _ => ⟨[], rfl⟩
    | cons x l ih =>
      intro h
      obtain ⟨y, hy⟩ := h x (by simp)
      obtain ⟨L, hL⟩ := ih fun z hz => h z (by simp [hz])
      exact ⟨y :: L, by rw [mapM_cons_andThen, hy, hL]; rfl⟩
  obtain ⟨L, hL⟩ := this hl
  obtain ⟨c, hc, -⟩ := contr_of hs hL
  exact ⟨c, hc⟩

theorem forM_error {α : Type*} {f : α → Except PyErr Unit} {e : PyErr} : ∀ {l : List α},
    (∀ x ∈ l, f x = .ok () ∨ f x = .error e) → l.forM f = .ok () ∨ l.forM f = .error e
  | [], _ => .inl rfl
  | x :: l, h => by
    show (f x >>= fun _ => l.forM f) = _ ∨ (f x >>= fun _ => l.forM f) = _
    rcases h x (by simp) with h1 | h1
    · rw [h1]
      exact forM_error fun y hy => h y (by simp [hy])
    · rw [h1]
      exact .inr rfl

/-- The class of the exception: `ValueError`, when the DRM can sketch all basic tensors of the object. -/
theorem contr_reject {env : Env K} {D : DRM K} {X : Obj K} (hs : X.sketches ≠ [])
    (hl : ∀ t ∈ X.leaves, ∃ l, D.sketch env t = .ok l) : X.contr env D = .error .valueError := by
  induction X using Obj.induct with
  | atom A =>
    cases A with
    | leaf X => simp [Obj.sketches] at hs
    | sketched S => simp only [Obj.contr]
  | sum s ts ih =>
    simp only [Obj.sketches] at hs
    simp only [Obj.leaves] at hl
    have hm : ts.forM (Obj.sketchMethod D) = .ok () ∨ ts.forM (Obj.sketchMethod D) = .error .valueError := by
      refine forM_error fun t ht => ?_
      match t, ht with
      | .atom (.leaf L), ht =>
        obtain ⟨l, h⟩ := hl L (by rw [leavesL_eq]; exact List.mem_flatMap.2 ⟨_, ht, by simp [Obj.leaves]⟩)
        exact .inl (if_pos (sketch_supports h))
      | .atom (.sketched S), _ => exact .inr rfl
      | .sum _ _, _ => exact .inl rfl
    have hc : Obj.contrL env D ts = .error .valueError := by
      clear hm
      induction ts with
      | nil => exact absurd rfl hs
      | cons t ts iht =>
        simp only [Obj.leavesL, List.mem_append] at hl
        by_cases ht : t.sketches = []
        · obtain ⟨c, h1⟩ := contr_of_each ht fun u hu => hl u (.inl hu)
          have h2 := iht (fun t ht => ih t (by simp [ht])) (by simpa [Obj.sketchesL, ht] using hs)
            fun u hu => hl u (.inr hu)
          simp only [Obj.contrL, h1, h2]
          rfl
        · have h1 := ih t (by simp) ht fun u hu => hl u (.inl hu)
          simp only [Obj.contrL, h1]
          rfl
    simp only [Obj.contr, hc]
    rcases hm with h | h <;> rw [h] <;> rfl

/-- **C83, rejection: which exception.** If the DRMs can sketch all basic tensors that occur, so that nothing but the sketch is
in the way, the exception is a `ValueError`. -/
theorem C83_reject_class (env : Env K) {X : Obj K} (hs : X.sketches ≠ []) (left : Option (DRM K)) (right : DRM K) (m : Method)
    (hl : ∀ D ∈ left, ∀ t ∈ X.leaves, ∃ l, D.sketch env t = .ok l)
    (hr : ∀ t ∈ X.leaves, ∃ l, right.sketch env t = .ok l) :
    X.generalSketch env left right m = .error .valueError := by
  cases m with
  | hmt => simp only [Obj.generalSketch, contr_reject hs hr]; rfl
  | streaming =>
    cases left with
    | none => rfl
    | some left => simp only [Obj.generalSketch, contr_reject hs (hl left rfl)]; rfl
  | orthogonal =>
    cases left with
    | none => rfl
    | some left => simp only [Obj.generalSketch, contr_reject hs (hl left rfl)]; rfl

/-- `C83_reject_class` applies to a sum of a dense array and a sketch of anything, sketched with a sketchable DRM. -/
example (env : Env K) (D : DRM K) (x : ND K) (S : Sketched K) (l : List (ND K)) (h : D.sketch env (.dense x) = .ok l) :
    (Obj.sum x.shape [.atom (.leaf (.dense x)), .sum x.shape [.atom (.sketched S)]]).generalSketch env none D .hmt
      = .error .valueError :=
  C83_reject_class env (by simp [Obj.sketches, Obj.sketchesL]) none D .hmt (by simp)
    (by simp [Obj.leaves, Obj.leavesL, h])

/-- **C83, rejection** by the user-level functions, also of updates `S + X` and of `X + S` added to a sketch. -/
theorem C83_reject_user (env : Env K) {X : Obj K} (hs : X.sketches ≠ []) :
    (∀ lrank rrank kw, ∃ e, X.streamSketch env lrank rrank kw = .error e) ∧
    (∀ lrank rrank kw, ∃ e, X.orthogonalSketch env lrank rrank kw = .error e) ∧
    (∀ rank seed ty drm ret, ∃ e, X.hmtSketch env rank seed ty drm ret = .error e) ∧
    ∀ S : Sketched K, ∃ e, Obj.add env (.atom (.sketched S)) X = .error e := by
  have conv : ∀ {α : Type _} {x : Except PyErr α}, (∀ a, x ≠ .ok a) → ∃ e, x = .error e := by
    intro α x h
    cases x with
    | error e => exact ⟨e, rfl⟩
    | ok a => exact absurd rfl (h a)
  have h1 : ∀ lrank rrank kw, ∃ e, X.streamSketch env lrank rrank kw = .error e := by
    intro lrank rrank kw
    refine conv fun S h => ?_
    unfold Obj.streamSketch at h
    obtain ⟨a, -, h⟩ := andThen_ok h
    obtain ⟨b, -, h⟩ := andThen_ok h
    split_ifs at h
    obtain ⟨l, -, h⟩ := andThen_ok h
    obtain ⟨r, -, h⟩ := andThen_ok h
    obtain ⟨s, h, -⟩ := andThen_ok h
    obtain ⟨e, he⟩ := C83_reject env hs (some l) r .streaming
    rw [he] at h; cases h
  refine ⟨h1, ?_, ?_, ?_⟩
  · intro lrank rrank kw
    refine conv fun S h => ?_
    unfold Obj.orthogonalSketch at h
    obtain ⟨b, -, h⟩ := andThen_ok h
    split_ifs at h
    obtain ⟨l, -, h⟩ := andThen_ok h
    obtain ⟨r, -, h⟩ := andThen_ok h
    obtain ⟨s, h, -⟩ := andThen_ok h
    obtain ⟨e, he⟩ := C83_reject env hs (some l) r .orthogonal
    rw [he] at h; cases h
  · intro rank seed ty drm ret
    refine conv fun S h => ?_
    unfold Obj.hmtSketch at h
    obtain ⟨D, -, h⟩ := andThen_ok h
    obtain ⟨s, h, -⟩ := andThen_ok h
    obtain ⟨e, he⟩ := C83_reject env hs none D .hmt
    rw [he] at h; cases h
  · intro S
    obtain ⟨e, he⟩ := h1 (.seq S.leftRank) (.seq S.rightRank) { left := some S.left, right := some S.right }
    exact ⟨e, by show (Obj.streamSketch env X _ _ _).andThen _ = _; rw [he]; rfl⟩

/-- **C83, updates.** Adding a nested sum to a sketch is adding the flat sum. -/
theorem C83_update (env : Env K) {X : Obj K} (hs : X.sketches = []) (S S' : Sketched K) :
    Obj.add env (.atom (.sketched S)) X = .ok (.atom (.sketched S')) ↔ S.add env X.flatten = .ok S' := by
  have e1 : SameOk (Obj.add env (.atom (.sketched S)) X) ((S.add env X.flatten).map fun S => Obj.atom (.sketched S)) := by
    show SameOk ((Obj.streamSketch env X _ _ _).andThen _) _
    have : ((S.add env X.flatten).map fun S => Obj.atom (.sketched S))
        = (streamSketch env X.flatten (.seq S.leftRank) (.seq S.rightRank)
            { left := some S.left, right := some S.right }).andThen fun o =>
          .ok (.atom (.sketched ⟨S.sketch.add o.sketch, S.left, S.right⟩)) := by
      unfold Sketched.add
      generalize streamSketch env X.flatten _ _ _ = o
      cases o <;> rfl
    rw [this]
    exact SameOk.andThen (C83_stream env hs _ _ _) fun o _ => SameOk.rfl' _
  rw [e1]
  cases S.add env X.flatten with
  | error e => exact ⟨fun h => (by cases h), fun h => (by cases h)⟩
  | ok T =>
    constructor
    · intro h
      replace h : Except.ok (Obj.atom (.sketched T)) = Except.ok (Obj.atom (.sketched S')) := h
      injection h with h
      injection h with h
      injection h with h
      rw [h]
    · intro h
      injection h with h
      rw [h]; rfl

/-! ### What the flat sum is -/

theorem leaves_good {env : Env K} {sh : List ℕ} {X : Obj K} (h : X.Good env sh) :
    ∀ L ∈ X.leaves, L.Valid ∧ L.Distinct ∧ L.shape = sh := by
  induction X using Obj.induct with
  | atom A =>
    cases A with
    | leaf L => intro L' hL; simp only [Obj.leaves, List.mem_singleton] at hL; subst hL; exact h
    | sketched S => simp [Obj.leaves]
  | sum s ts ih =>
    obtain ⟨rfl, h⟩ := h
    intro L hL
    simp only [Obj.leaves, leavesL_eq] at hL
    obtain ⟨t, ht, hL⟩ := List.mem_flatMap.1 hL
    exact ih t ht (goodL_iff.1 h t ht) L hL

theorem leaves_entry {env : Env K} {X : Obj K} (hs : X.sketches = []) (i : List ℕ) :
    X.entry env i = (X.leaves.map fun L => L.toNumpy.get i).sum := by
  induction X using Obj.induct with
  | atom A =>
    cases A with
    | leaf L => simp [Obj.leaves, Obj.entry]
    | sketched S => simp [Obj.sketches] at hs
  | sum s ts ih =>
    simp only [Obj.sketches, sketchesL_eq, List.flatMap_eq_nil_iff] at hs
    show Obj.entryL env i ts = _
    rw [entryL_eq]
    simp only [Obj.leaves, leavesL_eq]
    clear * - ih hs
    induction ts with
    | nil => rfl
    | cons t ts iht =>
      rw [List.map_cons, List.sum_cons, List.flatMap_cons, List.map_append, List.sum_append, ih t (by simp) (hs t (by simp)),
        iht (fun t ht => ih t (by simp [ht])) (fun t ht => hs t (by simp [ht]))]

theorem leaves_ne {X : Obj K} (hn : X.NoEmpty) (hs : X.sketches = []) : X.leaves ≠ [] := by
  induction X using Obj.induct with
  | atom A =>
    cases A with
    | leaf L => simp [Obj.leaves]
    | sketched S => simp [Obj.sketches] at hs
  | sum s ts ih =>
    simp only [Obj.sketches, sketchesL_eq, List.flatMap_eq_nil_iff] at hs
    obtain ⟨ne, hn⟩ := hn
    match ts, ne with
    | t :: ts, _ =>
      simp only [Obj.leaves, Obj.leavesL]
      exact fun h => ih t (by simp) (noEmptyL_iff.1 hn t (by simp)) (hs t (by simp)) (List.append_eq_nil_iff.1 h).1

/-- **C83, meaning of the flat sum.** It is a well-formed lazy sum of basic tensors of the same shape with the same
entries, so that whatever is proved about tensors holds for the sketches of nested sums. -/
theorem C83_flatten {env : Env K} {sh : List ℕ} {X : Obj K} (h : X.Good env sh) (hs : X.sketches = []) :
    X.flatten.Valid ∧ X.flatten.Distinct ∧ X.flatten.shape = sh ∧ X.flatten.toNumpy = X.array env sh ∧
      X.flatten.summands = X.leaves ∧ (X.NoEmpty → X.flatten.NonEmpty) := by
  have hl := leaves_good h
  have hsh := good_shape h
  have hv : X.flatten.Valid := by
    match X, h, hs, hl with
    | .atom (.leaf L), h, _, _ => exact h.1
    | .atom (.sketched S), _, hs, _ => simp [Obj.sketches] at hs
    | .sum s ts, h, _, hl => exact fun t ht => ⟨(hl t ht).1, ((hl t ht).2.2).trans h.1.symm⟩
  have hs' : X.flatten.toNumpy.shape = sh := by rw [Tensor.toNumpy_shape hv, flatten_shape hs, hsh]
  refine ⟨hv, ?_, by rw [flatten_shape hs, hsh], array_eq hs' fun i => ?_, flatten_summands hs, fun hn => ?_⟩
  · match X, h, hs, hl with
    | .atom (.leaf L), h, _, _ => exact h.2.1
    | .atom (.sketched S), _, hs, _ => simp [Obj.sketches] at hs
    | .sum s ts, h, _, hl => exact fun t ht => (hl t ht).2.1
  · rw [leaves_entry hs]
    match X, hs, hv with
    | .atom (.leaf L), _, _ => simp [Obj.leaves, Obj.flatten, Tensor.toNumpy]
    | .atom (.sketched S), hs, _ => simp [Obj.sketches] at hs
    | .sum s ts, _, hv => exact TSum.toNumpy_get hv i
  · match X, hs, hn with
    | .atom (.leaf L), _, _ => trivial
    | .atom (.sketched S), hs, _ => simp [Obj.sketches] at hs
    | .sum s ts, hs, hn => exact leaves_ne hn hs

/-- **C83, regrouping.** Objects with the same entries get the same sketch from the same DRMs, however they are written as
nested sums of basic tensors (`RightExact`: no dense tensors with right tensor train DRMs, see C33). -/
theorem C83_regroup (env : Env K) {sh : List ℕ} {X Y : Obj K} (hX : X.Good env sh) (hY : Y.Good env sh)
    (nX : X.NoEmpty) (nY : Y.NoEmpty) (hd : 2 ≤ sh.length) (hxy : ∀ i, X.entry env i = Y.entry env i)
    (xX : ∀ t ∈ X.leaves, t.RightExact) (xY : ∀ t ∈ Y.leaves, t.RightExact)
    (lrank rrank : RankArg) (kw : SketchKw K) (hkw : kw.Good) {S T : Sketched K}
    (h1 : X.streamSketch env lrank rrank kw = .ok S) (h2 : Y.streamSketch env lrank rrank kw = .ok T) : S = T := by
  have ns : ∀ {Z : Obj K} {S}, Z.streamSketch env lrank rrank kw = .ok S → Z.sketches = [] := by
    intro Z S h
    by_contra hn
    obtain ⟨e, he⟩ := (C83_reject_user env hn).1 lrank rrank kw
    rw [he] at h; cases h
  have sX := ns h1
  have sY := ns h2
  obtain ⟨a1, a2, a3, a4, a5, a6⟩ := C83_flatten hX sX
  obtain ⟨b1, b2, b3, b4, b5, b6⟩ := C83_flatten hY sY
  have c1 := (C83_stream env sX _ _ _ _).1 h1
  have c2 := (C83_stream env sY _ _ _ _).1 h2
  have e1 := C33_streaming env X.flatten lrank rrank kw S hkw a1 (a6 nX) (by rw [a3]; exact hd) a2 (by rw [a5]; exact xX) c1
  have e2 := C33_streaming env Y.flatten lrank rrank kw T hkw b1 (b6 nY) (by rw [b3]; exact hd) b2 (by rw [b5]; exact xY) c2
  have arr : X.array env sh = Y.array env sh := by unfold Obj.array; congr 1; funext i; exact hxy i
  have hdr : S.left = T.left ∧ S.right = T.right := by
    unfold streamSketch at c1 c2
    obtain ⟨a, g1, c1⟩ := andThen_ok c1
    obtain ⟨b, g2, c1⟩ := andThen_ok c1
    obtain ⟨a', g1', c2⟩ := andThen_ok c2
    obtain ⟨b', g2', c2⟩ := andThen_ok c2
    obtain rfl : a = a' := by rw [g1] at g1'; injection g1'
    obtain rfl : b = b' := by rw [g2] at g2'; injection g2'
    split_ifs at c1 c2
    obtain ⟨l, k1, c1⟩ := andThen_ok c1
    obtain ⟨r, k2, c1⟩ := andThen_ok c1
    obtain ⟨s, -, c1⟩ := andThen_ok c1
    obtain ⟨l', k1', c2⟩ := andThen_ok c2
    obtain ⟨r', k2', c2⟩ := andThen_ok c2
    obtain ⟨s', -, c2⟩ := andThen_ok c2
    rw [a3] at k1 k2
    rw [b3] at k1' k2'
    obtain rfl : l = l' := by rw [k1] at k1'; injection k1'
    obtain rfl : r = r' := by rw [k2] at k2'; injection k2'
    injection c1 with c1
    injection c2 with c2
    rw [← c1, ← c2]
    exact ⟨rfl, rfl⟩
  obtain ⟨S1, S2, S3⟩ := S
  obtain ⟨T1, T2, T3⟩ := T
  obtain ⟨h3, h4⟩ := hdr
  simp only at h3 h4
  subst h3 h4
  congr 1
  rw [show S1 = _ from e1, show T1 = _ from e2, a3, b3, a4, b4, arr]
  rfl

/-! ### Example -/

/-- a nested sum -/
def x83 : Obj ℚ := .sum [2, 3, 2] [.atom (.leaf (.sparse x7)),
  .sum [2, 3, 2] [.sum [2, 3, 2] [.atom (.leaf (.sparse x7))], .atom (.leaf (.sparse x7))]]

theorem x83_good : x83.Good env7p [2, 3, 2] ∧ x83.NoEmpty := by
  have d : x7.Distinct := by simp [Sparse.Distinct, x7]
  have g : (Obj.atom (.leaf (.sparse x7))).Good env7p [2, 3, 2] := ⟨x7_valid, d, rfl⟩
  exact ⟨⟨rfl, g, ⟨rfl, ⟨rfl, g, trivial⟩, g, trivial⟩, trivial⟩,
    ⟨by simp, trivial, ⟨by simp, ⟨by simp, trivial, trivial⟩, trivial, trivial⟩, trivial⟩⟩

/-- It satisfies the hypotheses and is sketched. -/
example : ∃ S, x83.streamSketch env7p (.int 1) (.int 2) { seed := some 3 } = .ok S ∧ x83.sketches = [] ∧
    (∀ t ∈ x83.leaves, t.RightExact) ∧ x83.leaves.length = 3 := by
  have hs : x83.sketches = [] := by simp [x83, Obj.sketches, Obj.sketchesL]
  obtain ⟨h1, -, h3, -⟩ := C83_flatten x83_good.1 hs
  obtain ⟨S, h⟩ := C33_success env7p x83.flatten (.int 1) (.int 2) (some 3) none none h1 (by rw [h3]; decide)
    (by rw [h3]; rfl) (by rw [h3]; rfl) (.inl (by rw [h3]; decide)) (by decide)
    fun t _ D hD => supports_tt D (by rcases hD with h | h <;> exact h) t
  refine ⟨S, (C83_stream env7p hs _ _ _ _).2 h, hs, ?_, ?_⟩
  · simp [x83, Obj.leaves, Obj.leavesL, Leaf.RightExact]
  · simp [x83, Obj.leaves, Obj.leavesL]

end TTS.Props
