import Verif.Lemmas.RelateNet
import Verif.Spec.Training
import Verif.Lemmas.List
/-!
# Relations that hold at every index
-/

namespace Renplex

open Filter Relate

section point
variable {ι : Type} {l : Filter ι}

theorem RL.point {A : ι → Type} {B : Type} {S : (∀ k, A k) → B → Prop} {R : ∀ k, A k → B → Prop}
    {f : ∀ k, List (A k)} {bs : List B} (h : ∀ k, List.Forall₂ (R k) (f k) bs)
    (hS : ∀ a b, b ∈ bs → (∀ k, R k (a k) b) → S a b) : RL l S f bs := by
  induction bs generalizing f with
  | nil => exact RL.congr (.of_forall fun k => List.forall₂_nil_right_iff.mp (h k)) RL.nil
  | cons b bs ih =>
    have h' : ∀ k, ∃ a g, R k a b ∧ List.Forall₂ (R k) g bs ∧ f k = a :: g := fun k => by
      obtain ⟨a, g, h1, h2, h3⟩ := List.forall₂_cons_right_iff.mp (h k)
      exact ⟨a, g, h1, h2, h3⟩
    choose a g h1 h2 h3 using h'
    exact RL.congr (.of_forall h3) (RL.cons (hS a b (by simp) h1)
      (ih h2 fun a b hb => hS a b (by simp [hb])))

theorem RL.eventually {A : ι → Type} {B : Type} {S : (∀ k, A k) → B → Prop} {R : ∀ k, A k → B → Prop}
    {f : ∀ k, List (A k)} {bs : List B} (h : RL l S f bs)
    (hS : ∀ a b, S a b → ∀ᶠ k in l, R k (a k) b) : ∀ᶠ k in l, List.Forall₂ (R k) (f k) bs := by
  obtain ⟨as, h1, h2⟩ := h
  have : ∀ᶠ k in l, List.Forall₂ (R k) (as.map fun a => a k) bs := by
    clear h2
    induction h1 with
    | nil => exact .of_forall fun _ => .nil
    | cons h _ ih => filter_upwards [hS _ _ h, ih] with k h1 h2 using .cons h1 h2
  filter_upwards [h2, this] with k e h
  rwa [e]

theorem RM.point {A : ι → Type} {B : Type} {S : (∀ k, A k) → B → Prop} {R : ∀ k, A k → B → Prop}
    {m : ∀ k, Mat (A k)} {m' : Mat B} (h : ∀ k, Mat.Rel (R k) (m k) m')
    (hS : ∀ a b, (∀ k, R k (a k) b) → S a b) : RM l S m m' :=
  ⟨fun k => (m k).body, RL.point (fun k => (h k).1) fun a b _ => hS a b,
    .of_forall fun k => by rw [← (h k).2.1, ← (h k).2.2]⟩

theorem RM.eventually {A : ι → Type} {B : Type} {S : (∀ k, A k) → B → Prop} {R : ∀ k, A k → B → Prop}
    {m : ∀ k, Mat (A k)} {m' : Mat B} (h : RM l S m m')
    (hS : ∀ a b, S a b → ∀ᶠ k in l, R k (a k) b) : ∀ᶠ k in l, Mat.Rel (R k) (m k) m' := by
  obtain ⟨f, h1, h2⟩ := h
  filter_upwards [RL.eventually h1 hS, h2] with k h e
  rw [e]
  exact ⟨h, rfl, rfl⟩

end point

/-! ## Two arithmetics -/

section two
variable {A B : Type} {S : A → B → Prop}

/-- The trivial filter. -/
abbrev one : Filter Unit := pure ()

/-- The relation as one of families. -/
abbrev fam (S : A → B → Prop) : (Unit → A) → B → Prop := fun a b => S (a ()) b

theorem fam_ev : Ev one (fam S) := fun f g b h hg => by
  have e : f () = g () := h
  show S (f ()) b
  rwa [e]

theorem RL_one {f : Unit → List A} {bs : List B} : RL one (fam S) f bs ↔ List.Forall₂ S (f ()) bs :=
  ⟨fun h => RL.eventually (R := fun _ => S) h fun a b h => (h : ∀ᶠ k in one, S (a k) b),
    fun h => RL.point (R := fun _ => S) (fun _ => h) fun _ _ _ h => h ()⟩

theorem RM_one {f : Unit → Mat A} {m : Mat B} : RM one (fam S) f m ↔ (f ()).Rel S m :=
  ⟨fun h => RM.eventually (R := fun _ => S) h fun a b h => (h : ∀ᶠ k in one, S (a k) b),
    fun h => RM.point (R := fun _ => S) (fun _ => h) fun _ _ h => h ()⟩

theorem RIO_one {f : Unit → IOType A} {x : IOType B} : RIO one (fam S) f x ↔ (f ()).Rel S x := by
  constructor
  · intro h
    cases x with
    | scalar v =>
      obtain ⟨g, h1, h2⟩ := h
      have e : f () = .scalar (g ()) := h2
      rw [e]
      exact RL_one.mp h1
    | matrix v =>
      obtain ⟨g, h1, h2⟩ := h
      have e : f () = .matrix (g ()) := h2
      rw [e]
      exact RL.eventually (R := fun _ => Mat.Rel S) h1 fun a b h =>
        (RM_one.mp h : ∀ᶠ k in one, (a k).Rel S b)
  · intro h
    cases x with
    | scalar v =>
      cases e : f () with
      | scalar g =>
        rw [e] at h
        exact ⟨fun _ => g, RL_one.mpr h, e⟩
      | matrix g => rw [e] at h; exact h.elim
    | matrix v =>
      cases e : f () with
      | scalar g => rw [e] at h; exact h.elim
      | matrix g =>
        rw [e] at h
        exact ⟨fun _ => g, RL.point (R := fun _ => Mat.Rel S) (fun _ => h) fun a b _ h =>
          RM_one.mpr (h ()), e⟩

theorem RLayer_one {f : Unit → Layer A} {d : Layer B} : RLayer one (fam S) f d ↔ (f ()).Rel S d := by
  constructor
  · intro h
    cases d with
    | dense d =>
      obtain ⟨m, b, h1, h2, h3⟩ := h
      have e : f () = _ := h3
      rw [e]
      exact ⟨RM_one.mp h1, RL_one.mp h2, rfl⟩
    | conv d =>
      obtain ⟨m, b, h1, h2, h3⟩ := h
      have e : f () = _ := h3
      rw [e]
      exact ⟨RM.eventually (R := fun _ => Mat.Rel S) h1 fun a b h =>
        (RM_one.mp h : ∀ᶠ k in one, (a k).Rel S b), RL_one.mp h2, rfl, rfl⟩
    | reduce d =>
      obtain ⟨g, m, h1, h2, h3⟩ := h
      have e : f () = _ := h3
      rw [e]
      refine ⟨RM_one.mp h1, rfl, rfl, fun u v y h hy => ?_⟩
      obtain ⟨a, h4, h5⟩ := h2 (fun _ => u) v (RL_one.mpr h) y hy
      exact ⟨a (), h5, h4⟩
    | flatten d =>
      have e : f () = _ := h
      rw [e]
      exact rfl
  · intro h
    cases d with
    | dense d =>
      cases e : f () with
      | dense c =>
        rw [e] at h
        refine ⟨fun _ => c.weights, fun _ => c.biases, RM_one.mpr h.1, RL_one.mpr h.2.1, ?_⟩
        show f () = _
        rw [e, ← h.2.2]
      | conv | reduce | flatten => rw [e] at h; exact h.elim
    | conv d =>
      cases e : f () with
      | conv c =>
        rw [e] at h
        refine ⟨fun _ => c.kernels, fun _ => c.biases, RM.point (R := fun _ => Mat.Rel S) (fun _ => h.1)
          fun a b h => RM_one.mpr (h ()), RL_one.mpr h.2.1, ?_⟩
        show f () = _
        rw [e, ← h.2.2.1, ← h.2.2.2]
      | dense | reduce | flatten => rw [e] at h; exact h.elim
    | reduce d =>
      cases e : f () with
      | reduce c =>
        rw [e] at h
        refine ⟨fun _ => c.blockFunc, fun _ => c.interpKernel, RM_one.mpr h.1, fun u v hv y hy => ?_, ?_⟩
        · obtain ⟨x, h1, h2⟩ := h.2.2.2 (u ()) v y (RL_one.mp hv) hy
          exact ⟨fun _ => x, h2, h1⟩
        · show f () = _
          rw [e, ← h.2.1, ← h.2.2.1]
      | dense | conv | flatten => rw [e] at h; exact h.elim
    | flatten d =>
      cases e : f () with
      | flatten c =>
        rw [e] at h
        show f () = _
        rw [e]
        exact congrArg _ h
      | dense | conv | reduce => rw [e] at h; exact h.elim

theorem RNet_one {f : Unit → Net A} {n : Net B} : RNet one (fam S) f n ↔ (f ()).Rel S n :=
  ⟨fun h => RL.eventually (R := fun _ => Layer.Rel S) h fun a b h =>
      (RLayer_one.mp h : ∀ᶠ k in one, (a k).Rel S b),
    fun h => RL.point (R := fun _ => Layer.Rel S) (fun _ => h) fun a b _ h => RLayer_one.mpr (h ())⟩

theorem RData_one {f : Unit → Dataset A} {d : Dataset B} : RData one (fam S) f d ↔ (f ()).Rel S d := by
  have key : ∀ {f : Unit → List (IOType A)} {v : List (IOType B)},
      RL one (RIO one (fam S)) f v ↔ List.Forall₂ (IOType.Rel S) (f ()) v :=
    ⟨fun h => RL.eventually (R := fun _ => IOType.Rel S) h fun a b h =>
        (RIO_one.mp h : ∀ᶠ k in one, (a k).Rel S b),
      fun h => RL.point (R := fun _ => IOType.Rel S) (fun _ => h) fun a b _ h => RIO_one.mpr (h ())⟩
  exact and_congr key key

variable {P Q : Type} [CplxOps A P] [CplxOps B Q]

theorem chain_of_acts {R : ActFunc → B → Prop} {ls : List (Layer B)} (h : ∀ d ∈ ls, ∀ z, R d.act z)
    (x : IOType B) : PreChain R ls x := by
  induction ls generalizing x with
  | nil => trivial
  | cons d ls ih =>
    refine ⟨?_, fun y _ => ih (fun d hd => h d (by simp [hd])) y⟩
    have h0 := h d (by simp)
    cases d <;> cases x <;> first | trivial | exact fun _ _ z _ => h0 z

theorem updateLayer_act {α P : Type} [CplxOps α P] {a : α} {g : List α × List α} {d d' : Layer α}
    (h : Net.updateLayer a g d = some d') : d'.act = d.act := by
  unfold Net.updateLayer at h
  split at h
  · obtain ⟨r, h1, h⟩ := Option.bind_eq_some_iff.mp h
    obtain ⟨_, -, h⟩ := Option.bind_eq_some_iff.mp h
    cases h
    cases d with
    | dense d =>
      cases h1
      simp only [Layer.act, Dense.negConjAdjustment]
      split
      · rfl
      · split <;> rfl
    | conv d =>
      cases h1
      simp only [Layer.act, Conv.negConjAdjustment]
      split
      · rfl
      · split <;> rfl
    | reduce d => cases h1; rfl
    | flatten d => cases h1
  · cases h; rfl

/-- Training keeps the activation options. -/
theorem acts_kept {α P : Type} [CplxOps α P] {p : ActFunc → Prop} {n : Net α}
    (h : ∀ d ∈ n.layers, p d.act) {D : Dataset α} {f : LossFunc} {a : α}
    {r : Except ForwardErr Unit × Net α} (hr : n.gradientOpt D f a = some r) :
    ∀ d ∈ r.2.layers, p d.act := by
  unfold Net.gradientOpt at hr
  split at hr
  · cases hr; exact h
  · simp only [Option.bind_eq_bind] at hr
    obtain ⟨acc, -, hr⟩ := Option.bind_eq_some_iff.mp hr
    obtain ⟨sc, -, hr⟩ := Option.bind_eq_some_iff.mp hr
    obtain ⟨ls, h1, hr⟩ := Option.bind_eq_some_iff.mp hr
    cases hr
    intro d hd
    obtain ⟨i, hi⟩ := List.mem_iff_getElem?.mp hd
    rw [mapM_getElem? h1] at hi
    obtain ⟨q, h2, h3⟩ := Option.bind_eq_some_iff.mp hi
    rw [updateLayer_act h3]
    exact h _ (List.of_mem_zip (List.mem_of_getElem? h2)).2

end two
end Renplex
