import Verif.Spec.Stability
import Verif.Props.LongRun
/-!
# C127: rounding errors do not accumulate where training is stable
-/

namespace Renplex
open Filter Topology Relate Rounding

/-! ## Distances -/

section lists
variable {α β γ : Type}

theorem forall₂_tri {P : α → β → Prop} {Q : γ → β → Prop} {S : α → γ → Prop} (h : ∀ a b c, P a b → Q c b → S a c)
    {as : List α} {bs : List β} {cs : List γ} (h1 : List.Forall₂ P as bs) (h2 : List.Forall₂ Q cs bs) :
    List.Forall₂ S as cs := by
  induction h1 generalizing cs with
  | nil => rw [List.forall₂_nil_right_iff.mp h2]; exact .nil
  | cons h5 _ ih =>
    obtain ⟨c, t, h3, h4, rfl⟩ := List.forall₂_cons_right_iff.mp h2
    exact .cons (h _ _ _ h5 h3) (ih h4)

theorem mat_tri {P : α → β → Prop} {Q : γ → β → Prop} {S : α → γ → Prop} (h : ∀ a b c, P a b → Q c b → S a c)
    {a : Mat α} {b : Mat β} {c : Mat γ} (h1 : a.Rel P b) (h2 : c.Rel Q b) : a.Rel S c :=
  ⟨forall₂_tri h h1.1 h2.1, h1.2.1.trans h2.2.1.symm, h1.2.2.trans h2.2.2.symm⟩

theorem forall₂_mid {P : α → γ → Prop} {Q : γ → β → Prop} {S : α → β → Prop}
    (h : ∀ a b, S a b → ∃ c, P a c ∧ Q c b) {as : List α} {bs : List β} (h1 : List.Forall₂ S as bs) :
    ∃ cs, List.Forall₂ P as cs ∧ List.Forall₂ Q cs bs := by
  induction h1 with
  | nil => exact ⟨[], .nil, .nil⟩
  | cons h1 _ ih =>
    obtain ⟨c, h2, h3⟩ := h _ _ h1
    obtain ⟨cs, h4, h5⟩ := ih
    exact ⟨c :: cs, .cons h2 h4, .cons h3 h5⟩

theorem mat_mid {P : α → γ → Prop} {Q : γ → β → Prop} {S : α → β → Prop}
    (h : ∀ a b, S a b → ∃ c, P a c ∧ Q c b) {a : Mat α} {b : Mat β} (h1 : a.Rel S b) : ∃ c, a.Rel P c ∧ c.Rel Q b := by
  obtain ⟨cs, h2, h3⟩ := forall₂_mid h h1.1
  exact ⟨⟨cs, a.shape, a.capacity⟩, ⟨h2, rfl, rfl⟩, h3, h1.2⟩

end lists

section within
variable {w : Width} {F : Format}

theorem Cf.within_tri {δ η : ℝ} {a : Cf w F.T} {z z' : Cf w ℝ} (h : a.Within δ z)
    (h' : Cf.Within (F := Format.exact) η z' z) : a.Within (δ + η) z' := by
  have key : ∀ x y y' : ℝ, |x - y| ≤ δ → |y' - y| ≤ η → |x - y'| ≤ δ + η := by
    intro x y y' h1 h2
    have := abs_sub_le x y y'
    rw [abs_sub_comm y y'] at this
    linarith
  exact ⟨⟨h.1.1, key _ _ _ h.1.2 h'.1.2⟩, h.2.1, key _ _ _ h.2.2 h'.2.2⟩

theorem Layer.within_tri {δ η : ℝ} {d : Layer (Cf w F.T)} {e e' : Layer (Cf w ℝ)} (h : d.Within δ e)
    (h' : Layer.Within (F := Format.exact) η e' e) : d.Within (δ + η) e' := by
  have hc : ∀ (a : Cf w F.T) (z z' : Cf w ℝ), a.Within δ z → Cf.Within (F := Format.exact) η z' z →
      a.Within (δ + η) z' := fun a z z' => Cf.within_tri
  cases e with
  | dense e =>
    cases d with
    | dense d =>
      cases e' with
      | dense e' => exact ⟨mat_tri hc h.1 h'.1, forall₂_tri hc h.2.1 h'.2.1, h.2.2.trans h'.2.2.symm⟩
      | conv | reduce | flatten => exact h'.elim
    | conv | reduce | flatten => exact h.elim
  | conv e =>
    cases d with
    | conv d =>
      cases e' with
      | conv e' =>
        have hm := fun (a : Mat (Cf w F.T)) (z z' : Mat (Cf w ℝ)) (h : a.Rel (Cf.Within δ) z)
          (h' : z'.Rel (Cf.Within (F := Format.exact) η) z) => mat_tri hc h h'
        exact ⟨mat_tri hm h.1 h'.1, forall₂_tri hc h.2.1 h'.2.1, h.2.2.1.trans h'.2.2.1.symm,
          h.2.2.2.trans h'.2.2.2.symm⟩
      | dense | reduce | flatten => exact h'.elim
    | dense | reduce | flatten => exact h.elim
  | reduce e =>
    cases d with
    | reduce d =>
      cases e' with
      | reduce e' => exact ⟨mat_tri hc h.1 h'.1, h.2.1.trans h'.2.1.symm, h.2.2.trans h'.2.2.symm⟩
      | dense | conv | flatten => exact h'.elim
    | dense | conv | flatten => exact h.elim
  | flatten e =>
    cases d with
    | flatten d =>
      cases e' with
      | flatten e' => exact Eq.trans (h : d = e) (h' : e' = e).symm
      | dense | conv | reduce => exact h'.elim
    | dense | conv | reduce => exact h.elim

theorem Net.within_tri {δ η : ℝ} {n : Net (Cf w F.T)} {m m' : Net (Cf w ℝ)} (h : n.Within δ m)
    (h' : Net.Within (F := Format.exact) η m' m) : n.Within (δ + η) m' :=
  forall₂_tri (fun (d : Layer (Cf w F.T)) (e e' : Layer (Cf w ℝ)) (h : d.Within δ e)
    (h' : Layer.Within (F := Format.exact) η e' e) => Layer.within_tri h h') h h'

theorem Net.Within.mono {δ δ' : ℝ} (h : δ ≤ δ') {n : Net (Cf w F.T)} {m : Net (Cf w ℝ)} (hw : n.Within δ m) :
    n.Within δ' m :=
  List.Forall₂.imp (fun _ _ => Layer.Within.mono h) hw

theorem Cf.near_refl (z : Cf w ℝ) : Cf.Within (F := Format.exact) 0 z z :=
  ⟨⟨trivial, by simp [Format.exact, Format.ofRound]⟩, trivial, by simp [Format.exact, Format.ofRound]⟩

theorem forall₂_refl {α : Type} {S : α → α → Prop} (h : ∀ a, S a a) (as : List α) : List.Forall₂ S as as :=
  List.forall₂_same.mpr fun a _ => h a

theorem Layer.near_refl (d : Layer (Cf w ℝ)) : Layer.Within (F := Format.exact) 0 d d := by
  have hc := forall₂_refl (Cf.near_refl (w := w))
  have hm : ∀ m : Mat (Cf w ℝ), m.Rel (Cf.Within (F := Format.exact) 0) m := fun m => ⟨hc _, rfl, rfl⟩
  cases d with
  | dense d => exact ⟨hm _, hc _, rfl⟩
  | conv d => exact ⟨⟨forall₂_refl hm _, rfl, rfl⟩, hc _, rfl, rfl⟩
  | reduce d => exact ⟨hm _, rfl, rfl⟩
  | flatten d => exact rfl

theorem Layer.Near.symm {η : ℝ} {d e : Layer (Cf w ℝ)} (h : d.Near η e) : e.Near η d := by
  refine ⟨?_, fun r hr => ?_⟩
  · have := Layer.within_tri (F := Format.exact) (Layer.near_refl e) h.1
    rwa [zero_add] at this
  · subst hr
    cases e with
    | reduce e => exact (h.2 e rfl).symm
    | dense | conv | flatten => exact h.1.elim

theorem Layer.Near.trans {η η' : ℝ} {d e f : Layer (Cf w ℝ)} (h : d.Near η e) (h' : e.Near η' f) :
    d.Near (η + η') f :=
  ⟨Layer.within_tri (F := Format.exact) h.1 h'.symm.1, fun r hr => h.2 r (h'.2 r hr)⟩

theorem Net.Near.within {η : ℝ} {n m : Net (Cf w ℝ)} (h : n.Near η m) : Net.Within (F := Format.exact) η n m :=
  h.imp fun _ _ h => h.1

theorem Net.Near.symm {η : ℝ} {n m : Net (Cf w ℝ)} (h : n.Near η m) : m.Near η n := by
  have h1 : List.Forall₂ (flip (Layer.Near η)) n.layers m.layers := h.imp fun _ _ h => h.symm
  exact h1.flip

theorem Net.Near.trans {η η' : ℝ} {n m m' : Net (Cf w ℝ)} (h : n.Near η m) (h' : m.Near η' m') : n.Near (η + η') m' :=
  forall₂_tri (fun (a b c : Layer (Cf w ℝ)) (h : a.Near η b) (h' : c.Near η' b) => h.trans h'.symm) h h'.symm

theorem Net.Near.mono {η η' : ℝ} {n m : Net (Cf w ℝ)} (hw : n.Near η m) (h : η ≤ η') : n.Near η' m :=
  hw.imp fun _ _ hd => ⟨Layer.Within.mono (F := Format.exact) h hd.1, hd.2⟩

theorem Net.Near.pools {η : ℝ} {n m : Net (Cf w ℝ)} (h : n.Near η m) (hm : m.MeanPools) : n.MeanPools := by
  intro r hr
  obtain ⟨e, he, h1⟩ := forall₂_mem_right h.symm _ hr
  rw [h1.2 r rfl] at he
  exact hm r he

/-- The exact layer with the values of a rounded one. -/
theorem Layer.shadow {δ η : ℝ} (hδ : 0 ≤ δ) {d : Layer (Cf w F.T)} {e : Layer (Cf w ℝ)} (h : d.Within η e)
    (hr : ∀ r, e = .reduce r → d.Within δ e) : ∃ e' : Layer (Cf w ℝ), d.Within δ e' ∧ e'.Near η e := by
  have hc : ∀ (a : Cf w F.T) (z : Cf w ℝ), a.Within η z → ∃ z' : Cf w ℝ, a.Within δ z'
      ∧ Cf.Within (F := Format.exact) η z' z :=
    fun a z h => ⟨⟨F.val a.x, F.val a.y⟩, ⟨⟨h.1.1, by simpa using hδ⟩, h.2.1, by simpa using hδ⟩, ⟨trivial, h.1.2⟩,
      trivial, h.2.2⟩
  cases d with
  | dense d =>
    cases e with
    | dense e =>
      obtain ⟨W, h1, h2⟩ := mat_mid hc h.1
      obtain ⟨b, h3, h4⟩ := forall₂_mid hc h.2.1
      exact ⟨.dense ⟨W, b, d.func⟩, ⟨h1, h3, rfl⟩, ⟨h2, h4, h.2.2⟩, nofun⟩
    | conv | reduce | flatten => exact h.elim
  | conv d =>
    cases e with
    | conv e =>
      obtain ⟨W, h1, h2⟩ := mat_mid (fun _ _ h => mat_mid hc h) h.1
      obtain ⟨b, h3, h4⟩ := forall₂_mid hc h.2.1
      exact ⟨.conv ⟨d.inputFeaturesLen, W, b, d.func⟩, ⟨h1, h3, rfl, rfl⟩, ⟨h2, h4, h.2.2⟩, nofun⟩
    | dense | reduce | flatten => exact h.elim
  | reduce d =>
    cases e with
    | reduce e =>
      have hn := Layer.near_refl (.reduce e : Layer (Cf w ℝ))
      obtain ⟨z, -, h1, -⟩ | hne : (∃ z : Cf w ℝ, z ∈ e.interpKernel.body ∧ 0 ≤ η ∧ True) ∨ e.interpKernel.body = [] := by
        cases hb : e.interpKernel.body with
        | nil => exact .inr rfl
        | cons z t =>
          have h5 := h.1.1
          rw [hb] at h5
          obtain ⟨a, -, h6, -, -⟩ := List.forall₂_cons_right_iff.mp h5
          exact .inl ⟨z, List.mem_cons_self, (abs_nonneg _).trans h6.1.2, trivial⟩
      · exact ⟨.reduce e, hr e rfl, Layer.Within.mono (F := Format.exact) h1 hn, fun r h => h⟩
      · refine ⟨.reduce e, hr e rfl, ⟨⟨?_, rfl, rfl⟩, rfl, rfl⟩, fun r h => h⟩
        rw [hne]
        exact .nil
    | dense | conv | flatten => exact h.elim
  | flatten d =>
    cases e with
    | flatten e => exact ⟨.flatten d, rfl, h, nofun⟩
    | dense | conv | reduce => exact h.elim

/-- The pooling layers of a rounded network. -/
def PoolsIn (δ : ℝ) (x : Net (Cf w F.T)) (m : Net (Cf w ℝ)) : Prop :=
  ∀ (i : Nat) (r : Reduce (Cf w ℝ)), m.layers[i]? = some (.reduce r) →
    ∃ d, x.layers[i]? = some d ∧ d.Within δ (.reduce r)

theorem forall₂_getElem? {α β : Type} {S : α → β → Prop} {as : List α} {bs : List β} (h : List.Forall₂ S as bs) {i : Nat}
    {b : β} (hb : bs[i]? = some b) : ∃ a, as[i]? = some a ∧ S a b := by
  induction h generalizing i with
  | nil => simp at hb
  | cons h _ ih =>
    cases i with
    | zero =>
      rw [List.getElem?_cons_zero] at hb
      exact ⟨_, rfl, Option.some.inj hb ▸ h⟩
    | succ i =>
      rw [List.getElem?_cons_succ] at hb ⊢
      exact ih hb

theorem PoolsIn.of {δ : ℝ} {x : Net (Cf w F.T)} {m : Net (Cf w ℝ)} (h : x.Within δ m) : PoolsIn δ x m :=
  fun _ _ hi => forall₂_getElem? h hi

theorem PoolsIn.near {δ η : ℝ} {x : Net (Cf w F.T)} {m m' : Net (Cf w ℝ)} (h : PoolsIn δ x m) (h' : m'.Near η m) :
    PoolsIn δ x m' := by
  intro i r hi
  obtain ⟨e, h1, h2⟩ := forall₂_getElem? h'.symm hi
  rw [h2.2 r rfl] at h1
  exact h i r h1

theorem PoolsIn.after {δ ε : ℝ} {x x' : Net (Cf w F.T)} {m : Net (Cf w ℝ)} (h : PoolsIn δ x m)
    {S : List (TrainStep (Cf w F.T))} (ht : x.train S = some x') (hw : x'.Within ε m) : PoolsIn δ x' m := by
  intro i r hi
  obtain ⟨e, h1, h2⟩ := forall₂_getElem? hw hi
  obtain ⟨d, h3, h4⟩ := train_after ht h1
  obtain ⟨d', h5, h6⟩ := h i r hi
  obtain rfl : d = d' := Option.some.inj (h3.symm.trans h5)
  refine ⟨e, h1, ?_⟩
  cases d with
  | reduce d => exact (h4 : e = _) ▸ h6
  | dense | conv | flatten => exact h6.elim

theorem Net.shadow {δ η : ℝ} (hδ : 0 ≤ δ) {x : Net (Cf w F.T)} {m : Net (Cf w ℝ)} (h : x.Within η m)
    (hp : PoolsIn δ x m) : ∃ m' : Net (Cf w ℝ), x.Within δ m' ∧ m'.Near η m := by
  have h0 : List.Forall₂ (fun (d : Layer (Cf w F.T)) (e : Layer (Cf w ℝ)) =>
      d.Within η e ∧ ∀ r, e = .reduce r → d.Within δ e) x.layers m.layers := by
    have h' := List.forall₂_iff_get.mp h
    refine List.forall₂_iff_get.mpr ⟨h'.1, fun i h1 h2 => ⟨h'.2 i h1 h2, fun r hr => ?_⟩⟩
    have hr' : m.layers[i] = .reduce r := hr
    obtain ⟨d, h3, h4⟩ := hp i r (by rw [List.getElem?_eq_getElem h2, hr'])
    rw [List.getElem?_eq_getElem h1] at h3
    show Layer.Within δ x.layers[i] m.layers[i]
    rw [hr', Option.some.inj h3]
    exact h4
  obtain ⟨ls, h1, h2⟩ := forall₂_mid (fun d e (h : Layer.Within η d e ∧ ∀ r, e = .reduce r → d.Within δ e) =>
    Layer.shadow hδ h.1 h.2) h0
  exact ⟨⟨ls⟩, h1, h2⟩

end within

/-! ## Bounded sequences of networks have limits -/

/-- Every sequence in the vicinity of `x₀` has a subsequence with a limit. -/
def HasLimits {α : Type} (S : ℝ → α → α → Prop) : Prop :=
  ∀ (x₀ : α) (B : ℝ) (x : Nat → α), (∀ k, S B (x k) x₀) → ∃ (y : α) (φ : Nat → Nat), StrictMono φ
    ∧ ∀ ε > 0, ∀ᶠ k in atTop, S ε (x (φ k)) y

theorem HasLimits.forall₂ {α : Type} {S : ℝ → α → α → Prop} (h : HasLimits S) :
    HasLimits fun η => List.Forall₂ (S η) := by
  intro xs₀
  induction xs₀ with
  | nil => exact fun B x hx => ⟨[], id, strictMono_id, fun ε _ => .of_forall fun k => by
      have := List.forall₂_nil_right_iff.mp (hx k)
      show List.Forall₂ _ (x k) _
      rw [this]
      exact .nil⟩
  | cons x₀ xs₀ ih =>
    intro B x hx
    choose a t h1 h2 h3 using fun k => List.forall₂_cons_right_iff.mp (hx k)
    obtain ⟨y, φ, h4, h5⟩ := h x₀ B a h1
    obtain ⟨ys, ψ, h6, h7⟩ := ih B (fun k => t (φ k)) fun k => h2 _
    refine ⟨y :: ys, φ ∘ ψ, h4.comp h6, fun ε hε => ?_⟩
    filter_upwards [h6.tendsto_atTop.eventually (h5 ε hε), h7 ε hε] with k h8 h9
    show List.Forall₂ _ (x (φ (ψ k))) _
    rw [h3]
    exact .cons h8 h9

theorem HasLimits.mat {α : Type} {S : ℝ → α → α → Prop} (h : HasLimits S) : HasLimits fun η => Mat.Rel (S η) := by
  intro m₀ B m hm
  obtain ⟨y, φ, h1, h2⟩ := h.forall₂ m₀.body B (fun k => (m k).body) fun k => (hm k).1
  exact ⟨⟨y, m₀.shape, m₀.capacity⟩, φ, h1, fun ε hε => (h2 ε hε).mono fun k h => ⟨h, (hm _).2⟩⟩

section limits
variable {w : Width}

theorem Cf.hasLimits : HasLimits fun η => Cf.Within (w := w) (F := Format.exact) η := by
  intro z₀ B z hz
  obtain ⟨y, -, φ, h1, h2⟩ := tendsto_subseq_of_bounded (Metric.isBounded_closedBall (x := ((z₀.x, z₀.y) : ℝ × ℝ)) (r := B))
    (x := fun k => (((z k).x, (z k).y) : ℝ × ℝ)) fun k => by
      rw [Metric.mem_closedBall, Prod.dist_eq, Real.dist_eq, Real.dist_eq]
      exact max_le (hz k).1.2 (hz k).2.2
  refine ⟨⟨y.1, y.2⟩, φ, h1, fun ε hε => ?_⟩
  filter_upwards [Metric.tendsto_nhds.mp h2 ε hε] with k h
  rw [Prod.dist_eq, Real.dist_eq, Real.dist_eq] at h
  exact ⟨⟨trivial, (le_max_left _ _).trans h.le⟩, trivial, (le_max_right _ _).trans h.le⟩

theorem HasLimits.both {α β : Type} {S : ℝ → α → α → Prop} {S' : ℝ → β → β → Prop} (h : HasLimits S)
    (h' : HasLimits S') {x₀ : α} {y₀ : β} {B : ℝ} {x : Nat → α} {y : Nat → β} (h1 : ∀ k, S B (x k) x₀)
    (h2 : ∀ k, S' B (y k) y₀) : ∃ (a : α) (b : β) (φ : Nat → Nat), StrictMono φ
      ∧ ∀ ε > 0, ∀ᶠ k in atTop, S ε (x (φ k)) a ∧ S' ε (y (φ k)) b := by
  obtain ⟨a, φ, h3, h4⟩ := h x₀ B x h1
  obtain ⟨b, ψ, h5, h6⟩ := h' y₀ B (fun k => y (φ k)) fun k => h2 _
  exact ⟨a, b, φ ∘ ψ, h3.comp h5, fun ε hε => (h5.tendsto_atTop.eventually (h4 ε hε)).and (h6 ε hε)⟩

theorem Layer.hasLimits : HasLimits fun η => Layer.Near (w := w) η := by
  intro d₀ B d hd
  have hc := Cf.hasLimits (w := w)
  cases d₀ with
  | dense e =>
    have h1 : ∀ k, ∃ d' : Dense (Cf w ℝ), d k = .dense d' := by
      intro k
      have := (hd k).1
      cases hk : d k with
      | dense d' => exact ⟨d', rfl⟩
      | conv | reduce | flatten => rw [hk] at this; exact this.elim
    choose d' h1 using h1
    have h2 : ∀ k, Layer.Within (F := Format.exact) B (.dense (d' k)) (.dense e) := fun k => h1 k ▸ (hd k).1
    obtain ⟨W, b, φ, h3, h4⟩ := hc.mat.both hc.forall₂ (x := fun k => (d' k).weights) (y := fun k => (d' k).biases)
      (fun k => (h2 k).1) fun k => (h2 k).2.1
    refine ⟨.dense ⟨W, b, e.func⟩, φ, h3, fun ε hε => (h4 ε hε).mono fun k h => ?_⟩
    rw [h1]
    exact ⟨⟨h.1, h.2, (h2 _).2.2⟩, nofun⟩
  | conv e =>
    have h1 : ∀ k, ∃ d' : Conv (Cf w ℝ), d k = .conv d' := by
      intro k
      have := (hd k).1
      cases hk : d k with
      | conv d' => exact ⟨d', rfl⟩
      | dense | reduce | flatten => rw [hk] at this; exact this.elim
    choose d' h1 using h1
    have h2 : ∀ k, Layer.Within (F := Format.exact) B (.conv (d' k)) (.conv e) := fun k => h1 k ▸ (hd k).1
    obtain ⟨W, b, φ, h3, h4⟩ := hc.mat.mat.both hc.forall₂ (x := fun k => (d' k).kernels) (y := fun k => (d' k).biases)
      (fun k => (h2 k).1) fun k => (h2 k).2.1
    refine ⟨.conv ⟨e.inputFeaturesLen, W, b, e.func⟩, φ, h3, fun ε hε => (h4 ε hε).mono fun k h => ?_⟩
    rw [h1]
    exact ⟨⟨h.1, h.2, (h2 _).2.2⟩, nofun⟩
  | reduce e =>
    refine ⟨.reduce e, id, strictMono_id, fun ε hε => .of_forall fun k => ?_⟩
    show Layer.Near ε (d k) _
    rw [(hd k).2 e rfl]
    exact ⟨Layer.Within.mono (F := Format.exact) hε.le (Layer.near_refl _), fun r h => h⟩
  | flatten e =>
    refine ⟨.flatten e, id, strictMono_id, fun ε _ => .of_forall fun k => ⟨?_, nofun⟩⟩
    have := (hd k).1
    cases hk : d k with
    | flatten d' => rw [hk] at this; simp only [id, hk]; exact this
    | dense | conv | reduce => rw [hk] at this; exact this.elim

theorem Net.limit {n₀ : Net (Cf w ℝ)} {B : ℝ} {n : Nat → Net (Cf w ℝ)} (h : ∀ k, (n k).Near B n₀) :
    ∃ (m : Net (Cf w ℝ)) (φ : Nat → Nat), StrictMono φ ∧ ∀ ε > 0, ∀ᶠ k in atTop, (n (φ k)).Near ε m := by
  obtain ⟨ls, φ, h2, h3⟩ := Layer.hasLimits.forall₂ n₀.layers B (fun k => (n k).layers) h
  exact ⟨⟨ls⟩, φ, h2, h3⟩

end limits

/-! ## Training -/

section train
variable {w : Width}

theorem pools_after {R : Type} [Scalar R] {n m : Net (Cf w R)} {s : List (TrainStep (Cf w R))}
    (h : n.train s = some m) (hp : n.MeanPools) : m.MeanPools := by
  intro r hr
  obtain ⟨i, hi⟩ := List.mem_iff_getElem?.mp hr
  obtain ⟨d, h1, h2⟩ := train_after h hi
  have : d = .reduce r := by
    cases d with
    | dense | conv => exact h2.elim
    | reduce | flatten => exact h2.symm
  exact hp r (this ▸ List.mem_of_getElem? h1)

/-- The exact results depend continuously on the parameters. -/
theorem train_continuous {m p : Net (Cf w ℝ)} (hm : m.MeanPools) {s : List (TrainStep (Cf w ℝ))} (hs : SteadyRun m s)
    (ht : m.train s = some p) {x : Nat → Net (Cf w ℝ)} (hx : ∀ k, (x k).MeanPools) {δ : Nat → ℝ}
    (hδ : Tendsto δ atTop (𝓝 0)) (hxm : ∀ k, (x k).Near (δ k) m) {ε : ℝ} (hε : 0 < ε) :
    ∀ᶠ k in atTop, ∃ q, (x k).train s = some q ∧ Net.Within (F := Format.exact) ε q p := by
  have hF : Finer atTop fun _ : Nat => Format.exact := ⟨fun _ => Format.exact_sound le_rfl, tendsto_const_nhds⟩
  have hn := RNet_of_within (F := fun _ : Nat => Format.exact) hF hδ (fun k => (hxm k).within) hx hm
  have h0 : ∀ D : Dataset (Cf w ℝ), Dataset.Within (F := Format.exact) 0 D D := fun D =>
    have hio : ∀ a : IOType (Cf w ℝ), IOType.Within (F := Format.exact) 0 a a := fun a => by
      cases a with
      | scalar v => exact forall₂_refl Cf.near_refl v
      | matrix ms => exact forall₂_refl (fun m => ⟨forall₂_refl Cf.near_refl _, rfl, rfl⟩) ms
    ⟨forall₂_refl hio _, forall₂_refl hio _⟩
  have hst : RL atTop (RStep atTop) (fun _ : Nat => (s : List (TrainStep (Cf w Format.exact.T)))) s :=
    RL.point (R := fun _ (a : TrainStep (Cf w Format.exact.T)) (b : TrainStep (Cf w ℝ)) =>
        a.1.Within 0 b.1 ∧ a.2.1 = b.2.1 ∧ Cf.Within 0 a.2.2 b.2.2)
      (fun _ => forall₂_refl (fun a => ⟨h0 a.1, rfl, Cf.near_refl a.2.2⟩) s) fun a b _ h =>
      ⟨RData_of_within tendsto_const_nhds fun k => (h k).1, .of_forall fun k => (h k).2.1,
        nearC_of_within tendsto_const_nhds fun k => (h k).2.2⟩
  obtain ⟨q, j1, j2⟩ := C78_run hF hn hst hs ht
  filter_upwards [j2, RL.eventually j1 fun _ _ => RLayer_within hε] with k h1 h2
  exact ⟨q k, h1, h2⟩

variable {R : ℝ} {s : List (TrainStep (Cf w ℝ))} {n : Nat → Net (Cf w ℝ)}

/-- Training in any format of sufficient precision, uniformly for all starts in a tube. -/
theorem tube_uniform (hp : (n 0).MeanPools) (hB : ∃ B, ∀ T, (n T).Near B (n 0)) {S' : List (TrainStep (Cf w ℝ))}
    {r r' : ℝ} (hr : r' < r) (hok : ∀ (T : Nat) (m : Net (Cf w ℝ)), m.Near r (n T) →
      SteadyRun m S' ∧ ∃ m', m.train S' = some m') {ε : ℝ} (hε : 0 < ε) :
    ∃ δ > 0, ∀ F : Format, F.Sound → F.u ≤ δ → ∀ (x : Net (Cf w F.T)) (T : Nat) (m : Net (Cf w ℝ)), x.MeanPools →
      m.Near r' (n T) → x.Within δ m → ∀ S : List (TrainStep (Cf w F.T)), stepsWithin δ S S' →
      ∃ (m' : Net (Cf w ℝ)) (x' : Net (Cf w F.T)), m.train S' = some m' ∧ x.train S = some x' ∧ x'.Within ε m' := by
  by_contra hc
  obtain ⟨F, hF, hbad⟩ := bad_sequence hc
  simp only [not_forall] at hbad
  choose x T m h1 h3 h4 S h5 h6 using hbad
  obtain ⟨B, hB⟩ := hB
  have h2 : ∀ k, (m k).MeanPools := fun k => ((h3 k).trans (hB (T k))).pools hp
  obtain ⟨p, φ, h8, h9⟩ := Net.limit fun k => (h3 k).trans (hB (T k))
  obtain ⟨ψ, h10, h11⟩ := extraction_forall_of_eventually fun k : Nat => h9 (1 / ((k : ℝ) + 1)) (by positivity)
  have hφ : Tendsto (fun k => φ (ψ k)) atTop atTop := h8.tendsto_atTop.comp h10.tendsto_atTop
  -- the limit can be trained
  have h7 : p.MeanPools := (h11 0).symm.pools (h2 _)
  obtain ⟨k₁, hk₁⟩ := exists_nat_one_div_lt (sub_pos.mpr hr)
  obtain ⟨hst, p', hp'⟩ := hok (T (φ (ψ k₁))) p (((h11 k₁).symm.trans (h3 _)).mono (by linarith))
  -- the exact networks tend to it, and so do the rounded ones
  have hex := train_continuous h7 hst hp' (fun k => h2 (φ (ψ k))) tendsto_inv h11 (half_pos hε)
  have hF' : Finer atTop (fun k => F (φ (ψ k))) := ⟨fun k => hF.sound _, hF.lim.comp hφ⟩
  have hφi := tendsto_inv.comp hφ
  have hδ : Tendsto (fun k => 1 / (((φ (ψ k) : Nat) : ℝ) + 1) + 1 / ((k : ℝ) + 1)) atTop (𝓝 0) := by
    simpa using hφi.add tendsto_inv
  have hnet : RNet atTop (NearC atTop) (fun k => x (φ (ψ k))) p :=
    RNet_of_within hF' hδ (fun k => Net.within_tri (h4 (φ (ψ k))) (h11 k).symm.within) (fun k => h1 (φ (ψ k))) h7
  have hsteps : RL atTop (RStep atTop) (fun k => S (φ (ψ k))) S' :=
    RL.point (fun k => h5 (φ (ψ k))) fun a b _ h => ⟨RData_of_within hφi fun k => (h k).1,
      .of_forall fun k => (h k).2.1, nearC_of_within hφi fun k => (h k).2.2⟩
  obtain ⟨x', j1, j2⟩ := C78_run hF' hnet hsteps hst hp'
  obtain ⟨k, i1, i2, q, i3, i4⟩ := (j2.and ((RL.eventually j1 fun _ _ => RLayer_within (half_pos hε)).and hex)).exists
  refine h6 (φ (ψ k)) ⟨q, x' k, i3, i1, ?_⟩
  have := Net.within_tri i2 i4
  rwa [add_halves] at this

/-! ## Long runs -/

theorem Net.train_join {α P : Type} [CplxOps α P] (n : Net α) (s s' : List (TrainStep α)) :
    n.train (s ++ s') = (n.train s).bind fun n' => n'.train s' := by
  unfold Net.train
  rw [List.foldlM_append]
  rfl

theorem epochs_add {α : Type} (s : List (TrainStep α)) (j k : Nat) : epochs s (j + k) = epochs s j ++ epochs s k := by
  rw [epochs, List.replicate_add, List.flatten_append]
  rfl

theorem steps_epochs {F : Format} {δ : ℝ} {S : Nat → List (TrainStep (Cf w F.T))} (h : ∀ k, stepsWithin δ (S k) s)
    (k : Nat) : stepsWithin δ ((List.range k).map S).flatten (epochs s k) := by
  induction k with
  | zero => exact .nil
  | succ k ih =>
    rw [epochs_add, List.range_succ, List.map_append, List.flatten_append]
    have h1 : epochs s 1 = s := by simp [epochs]
    have h2 : (List.map S [k]).flatten = S k := by simp
    rw [h1, h2]
    exact List.rel_append ih (h k)

theorem steps_mono {F : Format} {δ δ' : ℝ} (hδ : δ ≤ δ') {S : List (TrainStep (Cf w F.T))} (h : stepsWithin δ S s) :
    stepsWithin δ' S s :=
  List.Forall₂.imp (fun _ _ h => ⟨⟨h.1.1.imp fun _ _ => io_mono fun _ _ => Cf.Within.mono hδ,
    h.1.2.imp fun _ _ => io_mono fun _ _ => Cf.Within.mono hδ⟩, h.2.1, h.2.2.mono hδ⟩) h

theorem range_add_map {α : Type} (S : Nat → List α) (j k : Nat) : ((List.range (j + k)).map S).flatten
    = ((List.range j).map S).flatten ++ ((List.range k).map fun i => S (j + i)).flatten := by
  rw [List.range_add, List.map_append, List.flatten_append, List.map_map]
  rfl

/-- Networks that start in the tube stay in it. -/
theorem tube_stays (h : Attracts R s n)
    (hs : ∀ (T : Nat) (m : Net (Cf w ℝ)), m.Near R (n T) → ∀ k, SteadyRun m (epochs s k))
    {ε : ℝ} (hε : 0 < ε) : ∃ η > 0, ∃ δ > 0, ∀ F : Format, F.Sound → F.u ≤ δ → ∀ (x : Net (Cf w F.T)) (T₀ : Nat),
      x.MeanPools → x.Within η (n T₀) → PoolsIn δ x (n 0) → ∀ S : Nat → List (TrainStep (Cf w F.T)),
      (∀ k, stepsWithin δ (S k) s) → ∀ T : Nat, ∃ x' : Net (Cf w F.T), x.train ((List.range T).map S).flatten = some x' ∧ x'.Within ε (n (T₀ + T)) := by
  obtain ⟨η₀, e0, hη₀⟩ := h.stays 1 one_pos
  obtain ⟨η₁, e1, hη₁⟩ := h.stays (ε / 2) (half_pos hε)
  set η := min (min (η₀ / 2) η₁) (R / 2) with hη
  have hη0 : 0 < η := lt_min (lt_min (half_pos e0) e1) (half_pos h.pos)
  have a0 : η ≤ η₀ / 2 := (min_le_left _ _).trans (min_le_left _ _)
  have a1 : η ≤ η₁ := (min_le_left _ _).trans (min_le_right _ _)
  have a2 : η ≤ R / 2 := min_le_right _ _
  obtain ⟨k₀, hk₀⟩ := h.comes (η / 2) (half_pos hη0)
  set K := k₀ + 1 with hK
  -- one precision for all lengths up to `K`
  have hr : η < min η₀ R := lt_min (by linarith) (by linarith [h.pos])
  have hU := fun k => tube_uniform h.pools h.bounded (S' := epochs s k) hr
    (fun T m hn => ⟨hs T m (hn.mono (min_le_right _ _)) k, by
      obtain ⟨m', h1, -⟩ := hη₀ T m (hn.mono (min_le_left _ _)) k
      exact ⟨m', h1⟩⟩) (show 0 < min (ε / 2) (η / 2) from lt_min (half_pos hε) (half_pos hη0))
  choose δ hδ hU using hU
  obtain ⟨δ', hδ', hmin⟩ : ∃ δ' > 0, ∀ k ≤ K, δ' ≤ δ k := by
    generalize K = N
    induction N with
    | zero => exact ⟨δ 0, hδ 0, fun k hk => by rw [Nat.le_zero.mp hk]⟩
    | succ N ih =>
      obtain ⟨d, d0, hd⟩ := ih
      refine ⟨min d (δ (N + 1)), lt_min d0 (hδ _), fun k hk => ?_⟩
      rcases Nat.le_succ_iff.mp hk with hk | rfl
      · exact (min_le_left _ _).trans (hd k hk)
      · exact min_le_right _ _
  refine ⟨η, hη0, δ', hδ', fun F hF hu x T₀ hx hw hpx S hS => ?_⟩
  obtain ⟨B, hB⟩ := h.bounded
  -- up to `K` epochs from anywhere in the tube
  have hstep : ∀ (y : Net (Cf w F.T)) (T : Nat), y.MeanPools → y.Within η (n T) →
      PoolsIn δ' y (n 0) → ∀ S' : Nat → List (TrainStep (Cf w F.T)),
      (∀ k, stepsWithin δ' (S' k) s) → ∀ k ≤ K, ∃ y' : Net (Cf w F.T), y.train ((List.range k).map S').flatten = some y'
        ∧ y'.MeanPools ∧ PoolsIn δ' y' (n 0) ∧ y'.Within ε (n (T + k)) ∧ (k = K → y'.Within η (n (T + k))) := by
    intro y T hy hyn hpy S' hS' k hk
    obtain ⟨m, hym, hmn⟩ := Net.shadow hδ'.le hyn (hpy.near (hB T))
    have hstk : stepsWithin (δ k) ((List.range k).map S').flatten (epochs s k) :=
      steps_mono (hmin k hk) (steps_epochs hS' k)
    obtain ⟨m', y', h1, h2, h3⟩ := hU k F hF (hu.trans (hmin k hk)) y T m hy hmn
      (hym.mono (hmin k hk)) _ hstk
    have hε' : y'.Within ε (n (T + k)) := by
      obtain ⟨m'', h4, h5⟩ := hη₁ T m (hmn.mono a1) k
      obtain rfl : m' = m'' := Option.some.inj (h1.symm.trans h4)
      have := Net.within_tri (h3.mono (min_le_left _ _)) h5.symm.within
      rwa [add_halves] at this
    refine ⟨y', h2, pools_after h2 hy, ((hpy.near (hB (T + k))).after h2 hε').near (hB (T + k)).symm, hε', ?_⟩
    · rintro rfl
      obtain ⟨m'', h4, h5⟩ := hk₀ T m (hmn.mono (by linarith)) K (Nat.le_succ _)
      obtain rfl : m' = m'' := Option.some.inj (h1.symm.trans h4)
      have := Net.within_tri (h3.mono (min_le_right _ _)) h5.symm.within
      rwa [add_halves] at this
  have hblock : ∀ q : Nat, ∃ y : Net (Cf w F.T), x.train ((List.range (q * K)).map S).flatten = some y ∧ y.MeanPools
      ∧ PoolsIn δ' y (n 0) ∧ y.Within η (n (T₀ + q * K)) := by
    intro q
    induction q with
    | zero =>
      rw [Nat.zero_mul]
      exact ⟨x, rfl, hx, hpx, hw⟩
    | succ q ih =>
      obtain ⟨y, h1, h2, hpy, h3⟩ := ih
      obtain ⟨y', h4, h5, hpy', -, h6⟩ := hstep y _ h2 h3 hpy (fun i => S (q * K + i)) (fun i => hS _) K le_rfl
      refine ⟨y', ?_, h5, hpy', ?_⟩
      · rw [Nat.succ_mul, range_add_map, Net.train_join, h1]
        exact h4
      · rw [Nat.succ_mul, ← Nat.add_assoc]
        exact h6 rfl
  intro T
  obtain ⟨y, h1, h2, hpy, h3⟩ := hblock (T / K)
  have hKpos : 0 < K := Nat.succ_pos _
  obtain ⟨y', h4, -, -, h5, -⟩ := hstep y _ h2 h3 hpy (fun i => S (T / K * K + i)) (fun i => hS _) (T % K)
    (Nat.mod_lt _ hKpos).le
  refine ⟨y', ?_, ?_⟩
  · conv_lhs => rw [← Nat.div_add_mod' T K]
    rw [range_add_map, Net.train_join, h1]
    exact h4
  · rw [Nat.add_assoc, Nat.div_add_mod' T K] at h5
    exact h5

/-- C127. Rounding errors do not accumulate where exact training is stable: let an exact run of any network be bounded and
uniformly asymptotically stable, and let no activation jump in its vicinity. Then for every `ε` a precision suffices
with which training never fails and stays within `ε` of the exact run for ever, however long the run is. -/
theorem C127_run (h : Attracts R s n)
    (hs : ∀ (T : Nat) (m : Net (Cf w ℝ)), m.Near R (n T) → ∀ k, SteadyRun m (epochs s k))
    {ε : ℝ} (hε : 0 < ε) : ∃ δ > 0, ∀ F : Format, F.Sound → F.u ≤ δ → ∀ x : Net (Cf w F.T), x.MeanPools →
      x.Within δ (n 0) → ∀ S : Nat → List (TrainStep (Cf w F.T)), (∀ k, stepsWithin δ (S k) s) →
      ∀ T : Nat, ∃ x' : Net (Cf w F.T), x.train ((List.range T).map S).flatten = some x' ∧ x'.Within ε (n T) := by
  obtain ⟨η, h1, δ, h2, h3⟩ := tube_stays h hs hε
  refine ⟨min η δ, lt_min h1 h2, fun F hF hu x hx hw S hS T => ?_⟩
  have := h3 F hF (hu.trans (min_le_right _ _)) x 0 hx (hw.mono (min_le_left _ _))
    (.of (hw.mono (min_le_right _ _))) S (fun k => steps_mono (min_le_right _ _) (hS k)) T
  rwa [Nat.zero_add] at this

/-- C127. The same from further away: started at any distance less than `R`, training in any format of sufficient
precision comes within `ε` of the exact run after a number of epochs that depends on `ε` only, and stays there for
ever. -/
theorem C127_comes (h : Attracts R s n)
    (hs : ∀ (T : Nat) (m : Net (Cf w ℝ)), m.Near R (n T) → ∀ k, SteadyRun m (epochs s k))
    {r : ℝ} (hr : r < R) {ε : ℝ} (hε : 0 < ε) : ∃ T₀ : Nat, ∃ δ > 0, ∀ F : Format, F.Sound → F.u ≤ δ →
      ∀ (x : Net (Cf w F.T)) (m : Net (Cf w ℝ)), x.MeanPools → m.Near r (n 0) → x.Within δ m →
      ∀ S : Nat → List (TrainStep (Cf w F.T)), (∀ k, stepsWithin δ (S k) s) →
      ∀ T : Nat, T₀ ≤ T → ∃ x' : Net (Cf w F.T), x.train ((List.range T).map S).flatten = some x'
        ∧ x'.Within ε (n T) := by
  obtain ⟨η, h1, δ, h2, h3⟩ := tube_stays h hs hε
  obtain ⟨k₀, hk₀⟩ := h.comes (η / 2) (half_pos h1)
  obtain ⟨δ', h4, h5⟩ := tube_uniform h.pools h.bounded (S' := epochs s k₀) hr (fun T m hn => ⟨hs T m hn k₀, by
    obtain ⟨m', h6, -⟩ := hk₀ T m hn k₀ le_rfl
    exact ⟨m', h6⟩⟩) (half_pos h1)
  refine ⟨k₀, min δ δ', lt_min h2 h4, fun F hF hu x m hx hm hxm S hS T hT => ?_⟩
  obtain ⟨m', x', h6, h7, h8⟩ := h5 F hF (hu.trans (min_le_right _ _)) x 0 m hx hm (hxm.mono (min_le_right _ _)) _
    (steps_mono (min_le_right _ _) (steps_epochs hS k₀))
  obtain ⟨m'', h9, h10⟩ := hk₀ 0 m (hm.mono hr.le) k₀ le_rfl
  obtain rfl : m' = m'' := Option.some.inj (h6.symm.trans h9)
  have hw : x'.Within η (n (0 + k₀)) := by
    have := Net.within_tri h8 h10.symm.within
    rwa [add_halves] at this
  obtain ⟨B, hB⟩ := h.bounded
  have hpx : PoolsIn δ x' (n 0) :=
    ((((PoolsIn.of (hxm.mono (min_le_left _ _))).near hm.symm).near (hB (0 + k₀))).after h7 hw).near (hB (0 + k₀)).symm
  obtain ⟨x'', h11, h12⟩ := h3 F hF (hu.trans (min_le_left _ _)) x' (0 + k₀) (pools_after h7 hx) hw hpx
    (fun i => S (k₀ + i)) (fun i => steps_mono (min_le_left _ _) (hS _)) (T - k₀)
  have e : k₀ + (T - k₀) = T := by omega
  refine ⟨x'', ?_, ?_⟩
  · conv_lhs => rw [← e]
    rw [range_add_map, Net.train_join, h7]
    exact h11
  · rw [Nat.add_assoc, e, Nat.zero_add] at h12
    exact h12

end train

/-! ## Linear layers -/

section linear
variable {w : Width} {pre : List (Layer (Cf w ℝ))} {z : Size} {u m : Nat} {l l' : Dense (Cf w ℝ)}
  {W W' : Nat → Nat → Cf w ℝ} {b b' : Nat → Cf w ℝ} {bs : List (Part w)}

theorem near_head {η : ℝ} (hf : ∀ d ∈ pre, d.Fixed) {x : Net (Cf w ℝ)} (h : x.Near η (withHead pre l)) :
    ∃ l' : Dense (Cf w ℝ), x = withHead pre l' ∧ Layer.Within (F := Format.exact) η (.dense l') (.dense l) := by
  have h' : List.Forall₂ (Layer.Near η) x.layers (pre ++ [.dense l]) := h
  have h1 := List.forall₂_take_append _ _ _ h'
  have h2 := List.forall₂_drop_append _ _ _ h'
  obtain ⟨a, t, ha, ht, e⟩ := List.forall₂_cons_right_iff.mp h2
  obtain rfl := List.forall₂_nil_right_iff.mp ht
  have hpre : x.layers.take pre.length = pre := by
    generalize x.layers.take pre.length = q at h1
    clear h h' h2 e
    induction h1 with
    | nil => rfl
    | cons h3 _ ih =>
      rw [ih fun d hd => hf d (List.mem_cons_of_mem _ hd)]
      congr 1
      have h4 := hf _ List.mem_cons_self
      revert h3 h4
      rename_i a e _ _ _
      cases e with
      | dense | conv => exact fun _ h => h.elim
      | reduce e => exact fun h _ => h.2 e rfl
      | flatten e =>
        intro h _
        have h5 := h.1
        cases a with
        | flatten a => exact congrArg Layer.flatten (h5 : a = e)
        | dense | conv | reduce => exact h5.elim
  cases a with
  | dense d =>
    refine ⟨d, ?_, ha.1⟩
    have h3 := List.take_append_drop pre.length x.layers
    rw [hpre, e] at h3
    cases x
    exact congrArg Net.mk h3.symm
  | conv | reduce | flatten => exact ha.1.elim

theorem near_par {η : ℝ} (h0 : 0 ≤ η) (h : Layer.Within (F := Format.exact) η (.dense l') (.dense l)) (hl : l.Is u m W b .none) :
    ∃ (W' : Nat → Nat → Cf w ℝ) (b' : Nat → Cf w ℝ), l'.Is u m W' b' .none
      ∧ l'.weights.capacity = l.weights.capacity ∧ ‖toPar u m W' b' - toPar u m W b‖ ≤ parConst u m * (2 * η) := by
  obtain ⟨V, c, hd⟩ := within_is h hl
  obtain ⟨h1, h2, h3⟩ := (within_iff hd hl).mp h
  exact ⟨V, c, hd, h3, par_close (by positivity)
    (fun j hj i hi => Cf.Within.gap (F := Format.exact) (Cf.near_refl _) (h1 j hj i hi))
    fun j hj => Cf.Within.gap (F := Format.exact) (Cf.near_refl _) (h2 j hj)⟩

theorem near_of_par {η : ℝ} (hl : l.Is u m W b .none) (hl' : l'.Is u m W' b' .none)
    (hc : l'.weights.capacity = l.weights.capacity) (h : ‖toPar u m W b - toPar u m W' b'‖ ≤ η) :
    (withHead pre l).Near η (withHead pre l') := by
  have h0 : 0 ≤ η := (norm_nonneg _).trans h
  have h1 := within_move (F := Format.exact) (Layer.near_refl (.dense l)) hl hl' hc h
  rw [zero_add] at h1
  exact List.rel_append (forall₂_refl (fun d => ⟨Layer.Within.mono (F := Format.exact) h0 (Layer.near_refl d),
    fun r h => h⟩) pre) (.cons ⟨h1, nofun⟩ .nil)

theorem head_epochs (h : FixedFront pre z m) (hl : l.Is u m W b .none)
    (hb : ∀ p ∈ bs, p.pts ≠ [] ∧ ∀ q ∈ p.pts, q.1.HasSize z ∧ q.2.length = u) (k : Nat) :
    ∃ (l' : Dense (Cf w ℝ)) (W' : Nat → Nat → Cf w ℝ) (b' : Nat → Cf w ℝ),
      (withHead pre l).train (epochs (bs.map Part.call) k) = some (withHead pre l')
      ∧ l'.Is u m W' b' .none ∧ toPar u m W' b' = (bs.foldl (Part.next pre u m))^[k] (toPar u m W b) := by
  induction k with
  | zero => exact ⟨l, W, b, rfl, hl, rfl⟩
  | succ k ih =>
    obtain ⟨l₁, W₁, b₁, h1, h2, h3⟩ := ih
    obtain ⟨l₂, W₂, b₂, h4, h5, h6⟩ := h.train_par h2 hb
    refine ⟨l₂, W₂, b₂, ?_, h5, ?_⟩
    · rw [epochs_add, Net.train_join, h1]
      show (withHead pre l₁).train (epochs (bs.map Part.call) 1) = _
      rw [show epochs (bs.map Part.call) 1 = bs.map Part.call by simp [epochs]]
      exact h4
    · rw [h6, h3, Function.iterate_succ_apply']

/-- Training from anywhere in the vicinity of a run. -/
theorem linear_key (h : FixedFront pre z m) (hb : ∀ p ∈ bs, p.pts ≠ [] ∧ ∀ q ∈ p.pts, q.1.HasSize z ∧ q.2.length = u)
    {L : Nat → Dense (Cf w ℝ)} (hrun : EpochRun pre u m bs L) {ρ : ℝ} (r0 : 0 ≤ ρ)
    (hr : ∀ d, ‖epochMap pre u m bs d‖ ≤ ρ * ‖d‖) {η : ℝ} (hη : 0 ≤ η) {T : Nat} {x : Net (Cf w ℝ)}
    (hx : x.Near η (withHead pre (L T))) (k : Nat) :
    ∃ x' : Net (Cf w ℝ), x.train (epochs (bs.map Part.call) k) = some x'
      ∧ x'.Near (ρ ^ k * (parConst u m * (2 * η))) (withHead pre (L (T + k))) := by
  have hiter : ∀ (k : Nat) (θ θ' : Par u m), ‖(bs.foldl (Part.next pre u m))^[k] θ - (bs.foldl (Part.next pre u m))^[k] θ'‖
      ≤ ρ ^ k * ‖θ - θ'‖ := by
    intro k θ θ'
    induction k with
    | zero => simp
    | succ k ih =>
      rw [Function.iterate_succ_apply', Function.iterate_succ_apply', epoch_diff, pow_succ', mul_assoc]
      exact (hr _).trans (by gcongr)
  have hk : 0 ≤ parConst u m := Real.sqrt_nonneg _
  obtain ⟨θ, t1, t2⟩ := h.epochs hb hrun
  have hθ : ∀ k, θ (T + k) = (bs.foldl (Part.next pre u m))^[k] (θ T) := by
    intro k
    induction k with
    | zero => rfl
    | succ k ih => rw [← Nat.add_assoc, t1, ih, Function.iterate_succ_apply']
  have hcapT : ∀ T, (L T).weights.capacity = (L 0).weights.capacity := fun T => h.capacity (hrun.train T)
  obtain ⟨l, rfl, h1⟩ := near_head h.fixed hx
  obtain ⟨WT, bT, hWT, hθT⟩ := t2 T
  obtain ⟨W, b, h2, h3, h4⟩ := near_par hη h1 hWT
  obtain ⟨l', W', b', h5, h6, h7⟩ := head_epochs h h2 hb k
  obtain ⟨Wk, bk, hWk, hθk⟩ := t2 (T + k)
  refine ⟨_, h5, near_of_par h6 hWk ?_ ?_⟩
  · rw [hcapT, ← hcapT T, ← h3]
    exact (h.capacity h5).symm
  · rw [← hθk, hθ, hθT, h7]
    refine (hiter k _ _).trans ?_
    gcongr

/-- The parts of the assumptions that hold even if the points do not determine the parameters. -/
theorem linear_stays (h : FixedFront pre z m) (hu : 0 < u) (hb : ∀ p ∈ bs, p.Fine pre z u m)
    {L : Nat → Dense (Cf w ℝ)} (hrun : EpochRun pre u m bs L) :
    (∀ T, (withHead pre (L T)).train (bs.map Part.call) = some (withHead pre (L (T + 1))))
    ∧ (∃ B, ∀ T, (withHead pre (L T)).Near B (withHead pre (L 0)))
    ∧ ∀ ε > 0, ∃ η > 0, ∀ (T : Nat) (x : Net (Cf w ℝ)), x.Near η (withHead pre (L T)) → ∀ k : Nat,
      ∃ x' : Net (Cf w ℝ), x.train (epochs (bs.map Part.call) k) = some x' ∧ x'.Near ε (withHead pre (L (T + k))) := by
  have hb1 : ∀ p ∈ bs, p.pts ≠ [] ∧ ∀ q ∈ p.pts, q.1.HasSize z ∧ q.2.length = u :=
    fun p hp => ⟨(hb p hp).ne, (hb p hp).sized⟩
  have hsh := epoch_shrinks h hu hb
  have hk : 0 ≤ parConst u m := Real.sqrt_nonneg _
  refine ⟨fun T => ?_, ?_, fun ε hε => ?_⟩
  · have h3 := hrun.train (T + 1)
    have e : (List.replicate (T + 1) bs).flatten.map Part.call
        = (List.replicate T bs).flatten.map Part.call ++ bs.map Part.call := by
      rw [List.replicate_succ', List.flatten_append, List.map_append]
      simp
    rw [e, Net.train_join, hrun.train T] at h3
    exact h3
  · obtain ⟨θ, t1, t2⟩ := h.epochs hb1 hrun
    obtain ⟨θ', hfix, -⟩ := hsh.fixed (E := bs.foldl (Part.next pre u m)) epoch_diff epoch_perp (θ 0)
    have hdist : ∀ T, ‖θ T - θ'‖ ≤ ‖θ 0 - θ'‖ := by
      intro T
      induction T with
      | zero => rfl
      | succ T ih =>
        rw [t1, ← hfix, epoch_diff, hfix]
        exact (hsh.le _).trans ih
    refine ⟨2 * ‖θ 0 - θ'‖, fun T => ?_⟩
    obtain ⟨WT, bT, hWT, hθT⟩ := t2 T
    obtain ⟨W0, b0, hW0, hθ0⟩ := t2 0
    refine near_of_par hWT hW0 (h.capacity (hrun.train T)).symm ?_
    rw [← hθT, ← hθ0]
    have := norm_sub_le (θ T - θ') (θ 0 - θ')
    rw [sub_sub_sub_cancel_right] at this
    linarith [hdist T]
  · refine ⟨ε / (2 * (parConst u m + 1)), by positivity, fun T x hx k => ?_⟩
    obtain ⟨x', h1, h2⟩ := linear_key h hb1 hrun zero_le_one (fun d => by rw [one_mul]; exact hsh.le d)
      (by positivity) hx k
    refine ⟨x', h1, h2.mono ?_⟩
    rw [one_pow, one_mul, show parConst u m * (2 * (ε / (2 * (parConst u m + 1))))
      = ε * (parConst u m / (parConst u m + 1)) by field_simp]
    have h1 : parConst u m / (parConst u m + 1) ≤ 1 := by
      rw [div_le_one (by positivity)]
      linarith
    nlinarith

/-- C127. The assumptions hold for linear layers: if the points of the batches determine the parameters of the last layer and
the learning rates are below the thresholds, every exact run is stable, with every distance `R`. -/
theorem C127_linear (h : FixedFront pre z m) (hu : 0 < u) (hb : ∀ p ∈ bs, p.Fine pre z u m) (hd : Determined pre u m bs)
    (hp : ∀ d, Layer.reduce d ∈ pre → d.blockFunc = meanBlock) {L : Nat → Dense (Cf w ℝ)}
    (hrun : EpochRun pre u m bs L) {R : ℝ} (hR : 0 < R) :
    Attracts R (bs.map Part.call) (fun T => withHead pre (L T))
      ∧ ∀ (T : Nat) (x : Net (Cf w ℝ)), x.Near R (withHead pre (L T)) → ∀ k, SteadyRun x (epochs (bs.map Part.call) k) := by
  have hb1 : ∀ p ∈ bs, p.pts ≠ [] ∧ ∀ q ∈ p.pts, q.1.HasSize z ∧ q.2.length = u :=
    fun p hp => ⟨(hb p hp).ne, (hb p hp).sized⟩
  have hbot := hd.bot h fun p hp q hq => ((hb1 p hp).2 q hq).1
  obtain ⟨ρ, r0, r1, hr⟩ := (epoch_shrinks h hu hb).factor
  have hr1 : ∀ d, ‖epochMap pre u m bs d‖ ≤ ρ * ‖d‖ := by
    intro d
    have := hr d (by rw [hbot, Submodule.bot_orthogonal_eq_top]; trivial) 1
    simpa using this
  obtain ⟨h1, h2, h3⟩ := linear_stays h hu hb hrun
  refine ⟨⟨hR, head_pools hp, h1, h2, h3, fun ε hε => ?_⟩, fun T x hx k => ?_⟩
  · have hto : Tendsto (fun k => ρ ^ k * (parConst u m * (2 * R))) atTop (𝓝 0) := by
      simpa using (tendsto_pow_atTop_nhds_zero_of_lt_one r0 r1).mul_const (parConst u m * (2 * R))
    obtain ⟨k₀, hk₀⟩ := eventually_atTop.mp (hto.eventually_lt_const hε)
    refine ⟨k₀, fun T x hx k hkk => ?_⟩
    obtain ⟨x', h1, h2⟩ := linear_key h hb1 hrun r0 hr1 hR.le hx k
    exact ⟨x', h1, h2.mono (hk₀ k hkk).le⟩
  · obtain ⟨l, rfl, h1⟩ := near_head h.fixed hx
    obtain ⟨WT, bT, hWT⟩ := hrun.linear T
    obtain ⟨W, b, h2, -, -⟩ := near_par hR.le h1 hWT
    exact (h.smooth h2).run _

/-- C127, the assumption that networks in the vicinity come close to the run is needed. There is an exact run that fulfils all
the other assumptions such that, however high the precision, some format of this precision takes a parameter as far
away as wanted. -/
theorem C127_drift (f : LossFunc) : ∃ (s : List (TrainStep (Cf w ℝ))) (n : Nat → Net (Cf w ℝ)), (n 0).MeanPools
      ∧ (∀ T, (n T).train s = some (n (T + 1))) ∧ (∃ B, ∀ T, (n T).Near B (n 0))
      ∧ (∀ ε > 0, ∃ η > 0, ∀ (T : Nat) (x : Net (Cf w ℝ)), x.Near η (n T) → ∀ k : Nat,
        ∃ x' : Net (Cf w ℝ), x.train (epochs s k) = some x' ∧ x'.Near ε (n (T + k)))
      ∧ ∀ δ > 0, ∀ B : ℝ, ∃ F : Format, F.Sound ∧ F.u ≤ δ ∧ ∃ (x : Net (Cf w F.T)) (S : List (TrainStep (Cf w F.T)))
        (T : Nat) (x' : Net (Cf w F.T)), x.MeanPools ∧ x.Within δ (n 0) ∧ stepsWithin δ S s
        ∧ x.train (epochs S T) = some x' ∧ ¬ x'.Within B (n T) := by
  obtain ⟨pre, z, bs, l, h1, h2, h3, h4, h5⟩ := C126_drift (w := w) f
  obtain ⟨k1, k2, k3⟩ := linear_stays h1 one_pos h2 h3
  exact ⟨bs.map Part.call, fun _ => withHead pre l, head_pools h4, k1, k2, k3, h5⟩

end linear

/-! ## Non-vacuity -/

/-- A stable run. -/
example (f : LossFunc) : ∃ (s : List (TrainStep (Cf .w64 ℝ))) (n : Nat → Net (Cf .w64 ℝ)), Attracts 1 s n
    ∧ ∀ (T : Nat) (x : Net (Cf .w64 ℝ)), x.Near 1 (n T) → ∀ k, SteadyRun x (epochs s k) := by
  obtain ⟨h1, h2, h3, h4⟩ := exLong f
  obtain ⟨L, -, hrun⟩ := C121_run exFront_front h4 fun p hp => ⟨(h1 p hp).ne, (h1 p hp).sized⟩
  exact ⟨_, _, C127_linear exFront_front one_pos h1 h2 h3 hrun one_pos⟩

end Renplex
