import Verif.Spec.Pictures
import Verif.Props.Express
import Verif.Props.Patches
/-!
# C123: what convolutional networks can learn by heart and approximate
-/

namespace Renplex
variable {w : Width} {n r c p q u nf : Nat}

theorem pic_maps (X : Picture n r c) : ∃ ms : List (Mat (Cf w ℝ)), pic X = .matrix ms ∧ MapsAre ms n r c X.pixel :=
  ⟨_, rfl, mapsAre_fromBody n r c X.pixel⟩

theorem Picture.pixel_of (X : Picture n r c) (ch : Fin n) (i : Fin r) (j : Fin c) :
    (X.pixel ch i j : Cf w ℝ) = Cf.ofC (X ch i j) := by
  unfold Picture.pixel
  rw [dif_pos ⟨ch.2, i.2, j.2⟩]

/-- A convolutional layer and a flatten layer before a network. -/
theorem pictureNet_forward {l : Conv (Cf w ℝ)} {K : Nat → Nat → Nat → Nat → Cf w ℝ} {b : Nat → Cf w ℝ} {f : ActFunc}
    {A : Cf w ℝ → Cf w ℝ} (hl : l.Is nf n p q K b f) (hf : 0 < nf) (hn : 0 < n) (hp : 1 ≤ p) (hpr : p ≤ r)
    (hq : 1 ≤ q) (hqc : q ≤ c) (hA : ∀ z, CplxOps.activate f z = some (A z)) (X : Picture n r c)
    {N : Net (Cf w ℝ)} (hN : N.layers ≠ []) {y : IOType (Cf w ℝ)}
    (h : N.forward (.scalar (cube nf (r - p + 1) (c - q + 1) fun o i j => A (convPre n p q X.pixel K b o i j)))
      = some (.ok y)) :
    (pictureNet nf (r - p + 1) (c - q + 1) l N).forward (pic X) = some (.ok y) := by
  obtain ⟨ms, hms, hX⟩ := pic_maps (w := w) X
  obtain ⟨z, hz⟩ := image_forward hl hf hn hp hpr hq hqc hA ⟨((r - p + 1, c - q + 1), nf)⟩ hX
  obtain ⟨ys, y', h1, h2, h3⟩ := (C44_forward N hN _ _).mp h
  rw [hms]
  have hc := hz.append (y := .scalar (cube nf (r - p + 1) (c - q + 1) fun o i j =>
    A (convPre n p q X.pixel K b o i j))) (by simp) h1
  refine (C44_forward _ (by simp [pictureNet]) _ _).mpr ⟨_, y', hc, ?_, h3⟩
  rw [List.getLast?_append, h2]
  rfl

/-! ## A layer that copies all pixels -/

/-- The kernel of filter `ch·p·q + a·q + e` picks the pixel of map `ch` at row `a` and column `e`. -/
noncomputable def copyKernel (p q : Nat) (o ch a e : Nat) : Cf w ℝ := if o = ch * (p * q) + (a * q + e) then 1 else 0

/-- The layer that copies all pixels, with one filter per pixel of a patch, plus `B + B·i`. -/
noncomputable def copyConv (w : Width) (n p q : Nat) (B : ℝ) : Conv (Cf w ℝ) :=
  ⟨n, Mat.fromBody (table (n * (p * q)) n fun o ch => Mat.fromBody (table p q (copyKernel p q o ch)) (p, q)) (n * (p * q), n),
    (List.range (n * (p * q))).map fun _ => ⟨B, B⟩, .ritReLU⟩

theorem copyConv_is (n p q : Nat) (B : ℝ) :
    (copyConv w n p q B).Is (n * (p * q)) n p q (copyKernel p q) (fun _ => ⟨B, B⟩) .ritReLU :=
  ⟨rfl, rfl, rfl, _, ⟨rfl, rfl⟩, fun _ _ _ _ => ⟨rfl, rfl⟩⟩

theorem copy_pre (X : Nat → Nat → Nat → Cf w ℝ) (b : Nat → Cf w ℝ) {ch a e : Nat} (hch : ch < n) (ha : a < p) (he : e < q) (i j : Nat) :
    convPre n p q X (copyKernel p q) b (ch * (p * q) + (a * q + e)) i j
      = X ch (i + a) (j + e) + b (ch * (p * q) + (a * q + e)) := by
  rw [convPre_sum]
  congr 1
  obtain ⟨h1, h2, h3⟩ := flat_dec ch ha he
  have key : ∀ ch' a' e', a' < p → e' < q → ch * (p * q) + (a * q + e) = ch' * (p * q) + (a' * q + e') →
      ch' = ch ∧ a' = a ∧ e' = e := by
    intro ch' a' e' ha' he' h
    obtain ⟨k1, k2, k3⟩ := flat_dec ch' ha' he'
    rw [h] at h1 h2 h3
    exact ⟨k1.symm.trans h1, k2.symm.trans h2, k3.symm.trans h3⟩
  rw [Finset.sum_eq_single ch, Finset.sum_eq_single a, Finset.sum_eq_single e]
  · unfold copyKernel
    rw [if_pos rfl, mul_one]
  · intro e' he' hne
    unfold copyKernel
    rw [if_neg fun h => hne (key _ _ _ ha (Finset.mem_range.mp he') h).2.2, mul_zero]
  · exact fun h => absurd (Finset.mem_range.mpr he) h
  · intro a' ha' hne
    refine Finset.sum_eq_zero fun e' he' => ?_
    unfold copyKernel
    rw [if_neg fun h => hne (key _ _ _ (Finset.mem_range.mp ha') (Finset.mem_range.mp he') h).2.1, mul_zero]
  · exact fun h => absurd (Finset.mem_range.mpr ha) h
  · intro ch' _ hne
    refine Finset.sum_eq_zero fun a' ha' => Finset.sum_eq_zero fun e' he' => ?_
    unfold copyKernel
    rw [if_neg fun h => hne (key _ _ _ (Finset.mem_range.mp ha') (Finset.mem_range.mp he') h).1, mul_zero]
  · exact fun h => absurd (Finset.mem_range.mpr hch) h

/-- `RITReLU`. -/
noncomputable def reluOf (z : Cf w ℝ) : Cf w ℝ := ⟨max 0 z.x, max 0 z.y⟩

theorem reluOf_eq (z : Cf w ℝ) : CplxOps.activate .ritReLU z = some (reluOf z) := by
  show some (⟨Act.relu _, Act.relu _⟩ : Cf w ℝ) = _
  rw [relu_eq, relu_eq]
  rfl

/-- The flattened copies of all pixels, plus `B + B·i`. -/
noncomputable def copies (n r c p q : Nat) (B : ℝ) (X : Picture n r c) :
    Fin (n * (p * q) * ((r - p + 1) * (c - q + 1))) → ℂ := fun k =>
  flatOf (r - p + 1) (c - q + 1) (fun o i j => flatOf p q (fun ch a e => (X.pixel ch (i + a) (j + e) : Cf .w64 ℝ).toC) o
    + ⟨B, B⟩) k

theorem pixel_toC (X : Picture n r c) (ch i j : Nat) :
    (X.pixel ch i j : Cf w ℝ).toC = if h : ch < n ∧ i < r ∧ j < c then X ⟨ch, h.1⟩ ⟨i, h.2.1⟩ ⟨j, h.2.2⟩ else 0 := by
  unfold Picture.pixel
  split
  · rw [Cf.toC_ofC]
  · exact Cf.toC_hom_zero

theorem copy_relu {B : ℝ} {X : Picture n r c} (hB : ∀ ch i j, ‖X ch i j‖ ≤ B) (hB0 : 0 ≤ B) (ch i j : Nat) :
    (reluOf (X.pixel ch i j + ⟨B, B⟩ : Cf w ℝ)) = X.pixel ch i j + ⟨B, B⟩ := by
  have hle : ‖(X.pixel ch i j : Cf w ℝ).toC‖ ≤ B := by
    rw [pixel_toC]
    split
    · exact hB _ _ _
    · rwa [norm_zero]
  have h1 := (abs_le.mp ((Complex.abs_re_le_norm _).trans hle)).1
  have h2 := (abs_le.mp ((Complex.abs_im_le_norm _).trans hle)).1
  have e1 : (X.pixel ch i j + ⟨B, B⟩ : Cf w ℝ).x = (X.pixel ch i j : Cf w ℝ).x + B := by
    rw [← Cf.toC_re, Cf.toC_hom_add]; rfl
  have e2 : (X.pixel ch i j + ⟨B, B⟩ : Cf w ℝ).y = (X.pixel ch i j : Cf w ℝ).y + B := by
    rw [← Cf.toC_im, Cf.toC_hom_add]; rfl
  rw [Cf.toC_re] at h1
  rw [Cf.toC_im] at h2
  refine Cf.ext ?_ ?_
  · show max 0 _ = _
    rw [max_eq_right (by rw [e1]; linarith)]
  · show max 0 _ = _
    rw [max_eq_right (by rw [e2]; linarith)]

theorem copy_cube {B : ℝ} {X : Picture n r c} (hB : ∀ ch i j, ‖X ch i j‖ ≤ B) (hB0 : 0 ≤ B) (hp : 1 ≤ p) (hq : 1 ≤ q) :
    IOType.scalar (cube (n * (p * q)) (r - p + 1) (c - q + 1) fun o i j =>
      reluOf (convPre n p q X.pixel (copyKernel p q) (fun _ => (⟨B, B⟩ : Cf w ℝ)) o i j))
      = vec (copies n r c p q B X) := by
  have hcong : (cube (n * (p * q)) (r - p + 1) (c - q + 1) fun o i j =>
      reluOf (convPre n p q X.pixel (copyKernel p q) (fun _ => (⟨B, B⟩ : Cf w ℝ)) o i j))
      = cube (n * (p * q)) (r - p + 1) (c - q + 1) fun o i j =>
        flatOf p q (fun ch a e => X.pixel ch (i + a) (j + e)) o + (⟨B, B⟩ : Cf w ℝ) := by
    refine cube_congr fun o ho i _ j _ => ?_
    obtain ⟨ch, a, e, hch, ha, he, rfl⟩ : ∃ ch a e, ch < n ∧ a < p ∧ e < q ∧ o = ch * (p * q) + (a * q + e) := by
      have hpq : 0 < p * q := Nat.mul_pos hp hq
      refine ⟨o / (p * q), o % (p * q) / q, o % (p * q) % q, ?_, ?_, Nat.mod_lt _ hq, ?_⟩
      · rw [Nat.div_lt_iff_lt_mul hpq]; exact ho
      · rw [Nat.div_lt_iff_lt_mul hq]; exact Nat.mod_lt _ hpq
      · rw [mul_comm (o % (p * q) / q), Nat.div_add_mod, mul_comm (o / (p * q)), Nat.div_add_mod]
    rw [copy_pre _ _ hch ha he, flatOf_idx _ ch ha he, copy_relu hB hB0]
  rw [hcong, cube_flat]
  refine vec_of _ fun k => ?_
  rw [← Cf.toC_inj, Cf.toC_ofC]
  unfold copies flatOf
  beta_reduce
  rw [Cf.toC_hom_add, pixel_toC, pixel_toC]
  rfl

/-- Where the copy of a pixel stands. -/
theorem place_lt (hp : 1 ≤ p) (hpr : p ≤ r) (hq : 1 ≤ q) (hqc : q ≤ c) (ch : Fin n) (i : Fin r) (j : Fin c) :
    (ch * (p * q) + ((i - min i.val (r - p)) * q + (j - min j.val (c - q)))) * ((r - p + 1) * (c - q + 1))
      + (min i.val (r - p) * (c - q + 1) + min j.val (c - q)) < n * (p * q) * ((r - p + 1) * (c - q + 1)) := by
  have hi := i.2
  have hj := j.2
  exact idx_lt (idx_lt ch.2 (idx_lt (by omega) (by omega))) (idx_lt (by omega) (by omega))

/-- The picture back from the copies. -/
noncomputable def uncopy (hp : 1 ≤ p) (hpr : p ≤ r) (hq : 1 ≤ q) (hqc : q ≤ c) (B : ℝ)
    (v : Fin (n * (p * q) * ((r - p + 1) * (c - q + 1))) → ℂ) : Picture n r c := fun ch i j =>
  v ⟨_, place_lt hp hpr hq hqc ch i j⟩ - ⟨B, B⟩

theorem uncopy_copies (hp : 1 ≤ p) (hpr : p ≤ r) (hq : 1 ≤ q) (hqc : q ≤ c) (B : ℝ) (X : Picture n r c) :
    uncopy hp hpr hq hqc B (copies n r c p q B X) = X := by
  funext ch i j
  have hi := i.2
  have hj := j.2
  unfold uncopy copies
  beta_reduce
  rw [flatOf_idx _ _ (by omega) (by omega), flatOf_idx _ _ (by omega) (by omega), add_sub_cancel_right,
    show min i.val (r - p) + (i - min i.val (r - p)) = i by omega,
    show min j.val (c - q) + (j - min j.val (c - q)) = j by omega, Picture.pixel_of, Cf.toC_ofC]

theorem continuous_uncopy (hp : 1 ≤ p) (hpr : p ≤ r) (hq : 1 ≤ q) (hqc : q ≤ c) (B : ℝ) :
    Continuous (uncopy (n := n) hp hpr hq hqc B) :=
  continuous_pi fun _ => continuous_pi fun _ => continuous_pi fun _ => (continuous_apply _).sub continuous_const

theorem continuous_copies (B : ℝ) : Continuous (copies n r c p q B) := by
  refine continuous_pi fun k => ?_
  unfold copies flatOf
  refine Continuous.add ?_ continuous_const
  simp only [pixel_toC]
  split
  · exact (continuous_apply _).comp ((continuous_apply _).comp (continuous_apply _))
  · exact continuous_const

/-- C123. For any finite number of different pictures and any wanted outputs there is a network that returns
exactly these outputs: a convolutional layer with `RITReLU` and kernels of any given size, a flatten layer and
two dense layers, with as many hidden units as there are pictures. -/
theorem C123_memorise {N : Nat} (hn : 0 < n) (hp : 1 ≤ p) (hpr : p ≤ r) (hq : 1 ≤ q) (hqc : q ≤ c) (hN : 0 < N)
    (X : Fin N → Picture n r c) (hX : Function.Injective X) (y : Fin N → Fin u → ℂ) :
    ∃ (l : Conv (Cf w ℝ)) (a b : Dense (Cf w ℝ)), l.Has (n * (p * q)) n p q .ritReLU
      ∧ a.weights.shape = (N, n * (p * q) * ((r - p + 1) * (c - q + 1)))
      ∧ ReluNet (n * (p * q) * ((r - p + 1) * (c - q + 1))) u ⟨[.dense a, .dense b]⟩
      ∧ ∀ k, (pictureNet (n * (p * q)) (r - p + 1) (c - q + 1) l ⟨[.dense a, .dense b]⟩).forward (pic (X k))
        = some (.ok (vec (y k))) := by
  have hpq : 0 < n * (p * q) := Nat.mul_pos hn (Nat.mul_pos hp hq)
  let B : ℝ := ∑ k, ∑ ch, ∑ i, ∑ j, ‖X k ch i j‖
  have hB0 : 0 ≤ B := by positivity
  have hB : ∀ k ch i j, ‖X k ch i j‖ ≤ B := by
    intro k ch i j
    calc ‖X k ch i j‖ ≤ ∑ j, ‖X k ch i j‖ :=
          Finset.single_le_sum (f := fun j => ‖X k ch i j‖) (fun _ _ => norm_nonneg _) (Finset.mem_univ j)
      _ ≤ ∑ i, ∑ j, ‖X k ch i j‖ := Finset.single_le_sum (f := fun i => ∑ j, ‖X k ch i j‖)
          (fun _ _ => by positivity) (Finset.mem_univ i)
      _ ≤ ∑ ch, ∑ i, ∑ j, ‖X k ch i j‖ := Finset.single_le_sum (f := fun ch => ∑ i, ∑ j, ‖X k ch i j‖)
          (fun _ _ => by positivity) (Finset.mem_univ ch)
      _ ≤ B := Finset.single_le_sum (f := fun k => ∑ ch, ∑ i, ∑ j, ‖X k ch i j‖)
          (fun _ _ => by positivity) (Finset.mem_univ k)
  have hinj : Function.Injective fun k => copies n r c p q B (X k) := by
    intro k k' h
    have := congrArg (uncopy hp hpr hq hqc B) h
    rw [uncopy_copies, uncopy_copies] at this
    exact hX this
  obtain ⟨a, b, h1, h2, h3⟩ := C106_memorise (w := w)
    (Nat.mul_pos hpq (Nat.mul_pos (Nat.succ_pos _) (Nat.succ_pos _))) hN _ hinj y
  refine ⟨copyConv w n p q B, a, b, ⟨_, _, copyConv_is n p q B⟩, h1, h2, fun k => ?_⟩
  refine pictureNet_forward (copyConv_is n p q B) hpq hn hp hpr hq hqc reluOf_eq _ (by simp) ?_
  rw [copy_cube (hB k) hB0 hp hq]
  exact h3 k

/-- C123. On a compact set of pictures every continuous function is approximated, as closely as one likes, by a
network of a convolutional layer with kernels of any given size, a flatten layer and dense layers. -/
theorem C123_approximate (hn : 0 < n) (hp : 1 ≤ p) (hpr : p ≤ r) (hq : 1 ≤ q) (hqc : q ≤ c)
    {S : Set (Picture n r c)} (hS : IsCompact S) {F : Picture n r c → Fin u → ℂ} (hF : ContinuousOn F S)
    {ε : ℝ} (hε : 0 < ε) :
    ∃ (l : Conv (Cf w ℝ)) (N : Net (Cf w ℝ)), l.Has (n * (p * q)) n p q .ritReLU
      ∧ ReluNet (n * (p * q) * ((r - p + 1) * (c - q + 1))) u N
      ∧ ∀ X ∈ S, ∃ y : Fin u → ℂ, (pictureNet (n * (p * q)) (r - p + 1) (c - q + 1) l N).forward (pic X)
        = some (.ok (vec y)) ∧ ∀ k, ‖y k - F X k‖ < ε := by
  have hpq : 0 < n * (p * q) := Nat.mul_pos hn (Nat.mul_pos hp hq)
  obtain ⟨B, hB0, hB⟩ : ∃ B : ℝ, 0 ≤ B ∧ ∀ X ∈ S, ∀ ch i j, ‖X ch i j‖ ≤ B := by
    obtain ⟨B, hB⟩ := hS.isBounded.exists_norm_le
    refine ⟨max B 0, le_max_right _ _, fun X hX ch i j => ?_⟩
    exact ((norm_le_pi_norm (X ch i) j).trans ((norm_le_pi_norm (X ch) i).trans (norm_le_pi_norm X ch))).trans
      ((hB X hX).trans (le_max_left _ _))
  have hG : ContinuousOn (fun v => F (uncopy hp hpr hq hqc B v)) (copies n r c p q B '' S) := by
    refine hF.comp (continuous_uncopy hp hpr hq hqc B).continuousOn ?_
    rintro _ ⟨X, hX, rfl⟩
    rw [uncopy_copies]
    exact hX
  obtain ⟨N, h1, h2⟩ := C106_approximate (w := w)
    (Nat.mul_pos hpq (Nat.mul_pos (Nat.succ_pos (r - p)) (Nat.succ_pos (c - q))))
    (hS.image (continuous_copies B)) hG hε
  refine ⟨copyConv w n p q B, N, ⟨_, _, copyConv_is n p q B⟩, h1, fun X hX => ?_⟩
  obtain ⟨y, h3, h4⟩ := h2 _ ⟨X, hX, rfl⟩
  rw [uncopy_copies] at h4
  refine ⟨y, pictureNet_forward (copyConv_is n p q B) hpq hn hp hpr hq hqc reluOf_eq _ ?_ ?_, h4⟩
  · obtain ⟨-, -, hidden, out, h5, -⟩ := h1
    rw [h5]
    simp
  · rw [copy_cube (hB X hX) hB0 hp hq]
    exact h3

/-! ## One dense layer behind the convolutional one -/

/-- The pixels in a row. -/
noncomputable def pixelRow (n r c : Nat) (X : Picture n r c) : Fin (n * (r * c)) → ℂ := fun k =>
  flatOf r c (fun ch i j => (X.pixel ch i j : Cf .w64 ℝ).toC) k

theorem pixelRow_injective : Function.Injective (pixelRow n r c) := by
  intro X X' h
  funext ch i j
  have := congrFun h ⟨_, idx_lt ch.2 (idx_lt i.2 j.2)⟩
  unfold pixelRow at this
  beta_reduce at this
  rwa [flatOf_idx _ _ i.2 j.2, flatOf_idx _ _ i.2 j.2, Picture.pixel_of, Picture.pixel_of, Cf.toC_ofC, Cf.toC_ofC] at this

theorem cube_one (N : Nat) (F : Nat → Nat → Nat → Cf w ℝ) :
    cube N (r - r + 1) (c - c + 1) F = (List.range N).map fun o => F o 0 0 := by
  rw [Nat.sub_self, Nat.sub_self, zero_add, cube_flat, mul_one, mul_one]
  refine List.map_congr_left fun o _ => ?_
  unfold flatOf
  simp [Nat.mod_one]

/-- C123. With kernels as large as the pictures one dense layer behind the convolutional one is enough to learn
any finite number of different pictures by heart, with as many filters as there are pictures. -/
theorem C123_cover {N : Nat} (hn : 0 < n) (hr : 1 ≤ r) (hc : 1 ≤ c) (hN : 0 < N)
    (X : Fin N → Picture n r c) (hX : Function.Injective X) (y : Fin N → Fin u → ℂ) :
    ∃ (l : Conv (Cf w ℝ)) (b : Dense (Cf w ℝ)), l.Has N n r c .ritReLU
      ∧ (∃ W β, b.Is u N W β .none)
      ∧ ∀ k, (pictureNet N 1 1 l ⟨[.dense b]⟩).forward (pic (X k)) = some (.ok (vec (y k))) := by
  have hm : 0 < n * (r * c) := Nat.mul_pos hn (Nat.mul_pos hr hc)
  obtain ⟨a, b, h1, h2, h3⟩ := C106_memorise (w := w) hm hN (fun k => pixelRow n r c (X k))
    (pixelRow_injective.comp hX) y
  obtain ⟨hfit, hwf, hidden, out, h4, h5, h6⟩ := h2
  have hab : hidden = [a] ∧ out = b := by
    have e : hidden.map Layer.dense ++ [Layer.dense out] = [.dense a] ++ [.dense b] := h4.symm
    obtain ⟨e1, e2⟩ := List.append_inj' e rfl
    refine ⟨?_, by simpa using e2⟩
    cases hidden with
    | nil => simp at e1
    | cons x xs =>
      simp only [List.map_cons, List.cons.injEq, Layer.dense.injEq, List.map_eq_nil_iff] at e1
      rw [e1.1, e1.2]
  obtain ⟨rfl, rfl⟩ := hab
  have : Nonempty (Cf w ℝ) := ⟨0⟩
  obtain ⟨W, β, ha⟩ := Dense.exists_is (hwf (.dense a) (by simp))
  rw [h1, h5 a (by simp)] at ha
  have hbs : out.weights.shape = (u, N) := by
    cases hfit with
    | cons k1 k2 =>
      cases k2 with
      | cons k3 k4 =>
        cases k4
        rename_i s1
        cases s1 with
        | maps _ _ _ => exact k1.elim
        | vec v =>
          have e1 := k1.2
          have e2 := k3.2
          rw [h1] at e1
          cases e1
          exact e2
  obtain ⟨W', β', hb⟩ := Dense.exists_is (hwf (.dense out) (by simp))
  rw [hbs, h6] at hb
  let K : Nat → Nat → Nat → Nat → Cf w ℝ := fun o ch i j => W o (ch * (r * c) + (i * c + j))
  let l : Conv (Cf w ℝ) := ⟨n, Mat.fromBody (table N n fun o ch => Mat.fromBody (table r c (K o ch)) (r, c)) (N, n),
    (List.range N).map β, .ritReLU⟩
  have hl : l.Is N n r c K β .ritReLU := ⟨rfl, rfl, rfl, _, ⟨rfl, rfl⟩, fun _ _ _ _ => ⟨rfl, rfl⟩⟩
  refine ⟨l, out, ⟨K, β, hl⟩, ⟨W', β', hb⟩, fun k => ?_⟩
  have hpn := pictureNet_forward (X := X k) hl hN hn hr le_rfl hc le_rfl reluOf_eq (N := ⟨[.dense out]⟩) (by simp)
    (y := vec (y k))
  rw [Nat.sub_self, Nat.sub_self] at hpn
  refine hpn ?_
  have hc1 := cube_one (r := r) (c := c) N fun o i j => reluOf (convPre n r c (X k).pixel K β o i j)
  rw [Nat.sub_self, Nat.sub_self] at hc1
  rw [hc1]
  obtain ⟨ms, hms, hmaps⟩ := pic_maps (w := w) (X k)
  have hpf := patch_forward (K := K) (i := 0) (j := 0) ha (fun _ _ _ _ _ _ _ _ => rfl) hn hr hc reluOf_eq
    ⟨((r, c), n)⟩ (X k).pixel (by simpa using hmaps)
  obtain ⟨ys, y', k1, k2, k3⟩ := (C44_forward _ (by simp) _ _).mp (h3 k)
  have hv : (vec (pixelRow n r c (X k)) : IOType (Cf w ℝ))
      = .scalar ((List.range (n * (r * c))).map (flatOf r c fun ch a b => (X k).pixel ch (0 + a) (0 + b))) := by
    refine (vec_of _ fun i => ?_).symm
    unfold pixelRow flatOf
    beta_reduce
    rw [zero_add, zero_add, ← Cf.toC_inj, Cf.toC_ofC, pixel_toC, pixel_toC]
  rw [hv] at k1
  cases hpf with
  | cons p1 p2 =>
    cases p2 with
    | cons p3 p4 =>
      cases k1 with
      | cons q1 q2 =>
        rw [p3] at q1
        cases q1
        cases q2 with
        | cons q3 q4 =>
          cases q4
          exact (C44_forward _ (by simp) _ _).mpr ⟨_, y', .cons q3 (.nil _), by simpa using k2, k3⟩

/-- The weighted sum at a place sees at most one of the two corners, unless the kernel covers the picture. -/
theorem corners_pre (hpr : p ≤ r) (hqc : q ≤ c) (hlt : p < r ∨ q < c) (K : Nat → Nat → Nat → Nat → Cf w ℝ)
    (b : Nat → Cf w ℝ) (o i j : Nat) :
    (∀ s s' t, convPre n p q (corners n r c s t).pixel K b o i j = convPre n p q (corners n r c s' t).pixel K b o i j)
    ∨ ∀ s t t', convPre n p q (corners n r c s t).pixel K b o i j = convPre n p q (corners n r c s t').pixel K b o i j := by
  simp only [convPre_sum]
  have hpix : ∀ (s t : ℂ) ch i j, ((corners n r c s t).pixel ch i j : Cf w ℝ) = if ch < n ∧ i < r ∧ j < c then
      (if ch = 0 ∧ i = 0 ∧ j = 0 then Cf.ofC s else if ch = 0 ∧ i + 1 = r ∧ j + 1 = c then Cf.ofC t else 0) else 0 := by
    intro s t ch i j
    unfold Picture.pixel corners
    split
    · rw [apply_ite Cf.ofC, apply_ite Cf.ofC]
      have : (Cf.ofC 0 : Cf w ℝ) = 0 := by rw [← Cf.toC_inj, Cf.toC_ofC, Cf.toC_hom_zero]
      rw [this]
    · rfl
  by_cases h0 : i = 0 ∧ j = 0
  · right
    intro s t t'
    congr 1
    refine Finset.sum_congr rfl fun ch _ => Finset.sum_congr rfl fun a ha => Finset.sum_congr rfl fun e he => ?_
    rw [Finset.mem_range] at ha he
    rw [hpix, hpix, if_neg (c := ch = 0 ∧ i + a + 1 = r ∧ j + e + 1 = c) (by omega),
      if_neg (c := ch = 0 ∧ i + a + 1 = r ∧ j + e + 1 = c) (by omega)]
  · left
    intro s s' t
    congr 1
    refine Finset.sum_congr rfl fun ch _ => Finset.sum_congr rfl fun a ha => Finset.sum_congr rfl fun e he => ?_
    rw [hpix, hpix, if_neg (c := ch = 0 ∧ i + a = 0 ∧ j + e = 0) (by omega),
      if_neg (c := ch = 0 ∧ i + a = 0 ∧ j + e = 0) (by omega)]

/-- C123. With smaller kernels it is not: whatever the number of filters, the activation function and the
parameters, the outputs for the four pictures with two opposite corners black or white obey a linear relation. -/
theorem C123_corners (hn : 0 < n) (hp : 1 ≤ p) (hpr : p ≤ r) (hq : 1 ≤ q) (hqc : q ≤ c) (hlt : p < r ∨ q < c)
    (hf : 0 < nf) {f : ActFunc} (hA : ∀ z : Cf w ℝ, ∃ y, CplxOps.activate f z = some y) {l : Conv (Cf w ℝ)}
    (hl : l.Has nf n p q f) {b : Dense (Cf w ℝ)}
    (hb : ∃ W β, b.Is u (nf * ((r - p + 1) * (c - q + 1))) W β .none) :
    ∃ y : ℂ → ℂ → Fin u → ℂ, (∀ s t, (pictureNet nf (r - p + 1) (c - q + 1) l ⟨[.dense b]⟩).forward
        (pic (corners n r c s t)) = some (.ok (vec (y s t))))
      ∧ ∀ s s' t t' k, y s t k + y s' t' k = y s t' k + y s' t k := by
  obtain ⟨K, β, hl⟩ := hl
  obtain ⟨W, γ, hb⟩ := hb
  choose A hA using hA
  let Z (s t : ℂ) : Nat → Cf w ℝ := flatOf (r - p + 1) (c - q + 1) fun o i j =>
    A (convPre n p q (corners n r c s t).pixel K β o i j)
  have hM : 0 < nf * ((r - p + 1) * (c - q + 1)) := Nat.mul_pos hf (Nat.mul_pos (Nat.succ_pos _) (Nat.succ_pos _))
  refine ⟨fun s t k => ((∑ i ∈ Finset.range (nf * ((r - p + 1) * (c - q + 1))), W k i * Z s t i) + γ k).toC, ?_, ?_⟩
  · intro s t
    refine pictureNet_forward hl hf hn hp hpr hq hqc hA _ (by simp) ?_
    refine (C44_forward _ (by simp) _ _).mpr ⟨_, _, .cons (y := vec _) ?_ (.nil _), rfl, rfl⟩
    rw [cube_flat]
    rw [← vec_of _ (Y := fun k => (∑ i ∈ Finset.range (nf * ((r - p + 1) * (c - q + 1))), W k i * Z s t i) + γ k)
      (fun k => by rw [← Cf.toC_inj, Cf.toC_ofC])]
    exact C38_forward_exact_partial hb hM _ _ fun j _ => rfl
  · intro s s' t t' k
    have hZ : ∀ i ∈ Finset.range (nf * ((r - p + 1) * (c - q + 1))), Z s t i + Z s' t' i = Z s t' i + Z s' t i := by
      intro i _
      rcases corners_pre (n := n) hpr hqc hlt K β (i / ((r - p + 1) * (c - q + 1)))
        (i % ((r - p + 1) * (c - q + 1)) / (c - q + 1)) (i % ((r - p + 1) * (c - q + 1)) % (c - q + 1)) with h | h
      · show A _ + A _ = A _ + A _
        rw [h s s' t, h s s' t', add_comm]
      · show A _ + A _ = A _ + A _
        rw [h s t t', h s' t t']
    beta_reduce
    have hs : (∑ i ∈ Finset.range (nf * ((r - p + 1) * (c - q + 1))), W k i * Z s t i)
        + (∑ i ∈ Finset.range (nf * ((r - p + 1) * (c - q + 1))), W k i * Z s' t' i)
        = (∑ i ∈ Finset.range (nf * ((r - p + 1) * (c - q + 1))), W k i * Z s t' i)
        + ∑ i ∈ Finset.range (nf * ((r - p + 1) * (c - q + 1))), W k i * Z s' t i := by
      rw [← Finset.sum_add_distrib, ← Finset.sum_add_distrib]
      refine Finset.sum_congr rfl fun i hi => ?_
      rw [← mul_add, hZ i hi, mul_add]
    have hs' := congrArg Cf.toC hs
    rw [Cf.toC_hom_add, Cf.toC_hom_add] at hs'
    rw [Cf.toC_hom_add, Cf.toC_hom_add, Cf.toC_hom_add, Cf.toC_hom_add]
    linear_combination hs'

/-- C123. The exclusive or of two opposite corners: the summed squared error of such a network on the four
pictures is at least 1, while a network with kernels as large as the picture makes no error (`C123_cover`). -/
theorem C123_xor (hn : 0 < n) (hp : 1 ≤ p) (hpr : p ≤ r) (hq : 1 ≤ q) (hqc : q ≤ c) (hlt : p < r ∨ q < c)
    (hf : 0 < nf) {f : ActFunc} (hA : ∀ z : Cf w ℝ, ∃ y, CplxOps.activate f z = some y) {l : Conv (Cf w ℝ)}
    (hl : l.Has nf n p q f) {b : Dense (Cf w ℝ)}
    (hb : ∃ W β, b.Is 1 (nf * ((r - p + 1) * (c - q + 1))) W β .none) :
    ∃ e, BatchError (pictureNet nf (r - p + 1) (c - q + 1) l ⟨[.dense b]⟩)
        [(pic (corners n r c 0 0), [0]), (pic (corners n r c 0 1), [1]), (pic (corners n r c 1 0), [1]),
          (pic (corners n r c 1 1), [0])] e ∧ 1 ≤ e := by
  obtain ⟨y, h1, h2⟩ := C123_corners hn hp hpr hq hqc hlt hf hA hl hb
  refine ⟨_, ⟨[[Cf.ofC (y 0 0 0)], [Cf.ofC (y 0 1 0)], [Cf.ofC (y 1 0 0)], [Cf.ofC (y 1 1 0)]],
    .cons (h1 0 0) (.cons (h1 0 1) (.cons (h1 1 0) (.cons (h1 1 1) .nil))), rfl⟩, ?_⟩
  have h3 := h2 0 1 0 1 0
  have e1 : (1 : Cf w ℝ).toC = 1 := Cf.toC_hom_one
  simp only [sqSum, List.zipWith_cons_cons, List.zipWith_nil_left, List.zip_cons_cons, List.zip_nil_left, List.map_cons,
    List.map_nil, List.sum_cons, List.sum_nil, add_zero, Cf.toC_ofC, Cf.toC_hom_zero, e1]
  generalize y 0 0 0 = z1 at h3 ⊢
  generalize y 0 1 0 = z2 at h3 ⊢
  generalize y 1 0 0 = z3 at h3 ⊢
  generalize y 1 1 0 = z4 at h3 ⊢
  have hre := congrArg Complex.re h3
  simp only [Complex.add_re] at hre
  have key : ∀ z : ℂ, z.re ^ 2 ≤ ‖z‖ ^ 2 := fun z => by
    rw [← sq_abs]
    gcongr
    exact Complex.abs_re_le_norm z
  have k1 := key (0 - z1)
  have k2 := key (1 - z2)
  have k3 := key (1 - z3)
  have k4 := key (0 - z4)
  simp only [Complex.sub_re, Complex.zero_re, Complex.one_re] at k1 k2 k3 k4
  nlinarith [sq_nonneg (z1.re + z2.re - 1), sq_nonneg (z1.re + z3.re - 1), sq_nonneg (z1.re - z4.re),
    sq_nonneg (z2.re - z3.re), sq_nonneg (z4.re + z2.re - 1), sq_nonneg (z4.re + z3.re - 1)]

/-! ## Non-vacuity -/

/-- Four pictures of 2 × 2 pixels with kernels of one pixel: learned by heart with two dense layers. -/
example : ∃ (l : Conv (Cf .w64 ℝ)) (a b : Dense (Cf .w64 ℝ)), l.Has 1 1 1 1 .ritReLU
    ∧ ∀ k : Fin 2 × Fin 2, (pictureNet 1 2 2 l ⟨[.dense a, .dense b]⟩).forward (pic (corners 1 2 2 k.1.val k.2.val))
      = some (.ok (vec fun _ : Fin 1 => if k.1 = k.2 then 0 else 1)) := by
  let X : Fin 4 → Picture 1 2 2 := fun i => corners 1 2 2 (finProdFinEquiv.symm i : Fin 2 × Fin 2).1.val
    (finProdFinEquiv.symm i : Fin 2 × Fin 2).2.val
  have hX : Function.Injective X := by
    intro i i' h
    have h1 := congrFun (congrFun (congrFun h 0) 0) 0
    have h2 := congrFun (congrFun (congrFun h 0) 1) 1
    have e1 : ∀ k : Fin 4, X k 0 0 0 = ((finProdFinEquiv.symm k : Fin 2 × Fin 2).1.val : ℂ) := fun k => by
      simp [X, corners]
    have e2 : ∀ k : Fin 4, X k 0 1 1 = ((finProdFinEquiv.symm k : Fin 2 × Fin 2).2.val : ℂ) := fun k => by
      simp [X, corners]
    rw [e1, e1, Nat.cast_inj] at h1
    rw [e2, e2, Nat.cast_inj] at h2
    exact finProdFinEquiv.symm.injective (Prod.ext (Fin.ext h1) (Fin.ext h2))
  obtain ⟨l, a, b, h1, -, -, h2⟩ := C123_memorise (w := .w64) (p := 1) (q := 1) (u := 1) (by omega) le_rfl (by omega)
    le_rfl (by omega) (by omega) X hX fun i _ =>
      if (finProdFinEquiv.symm i : Fin 2 × Fin 2).1 = (finProdFinEquiv.symm i : Fin 2 × Fin 2).2 then 0 else 1
  refine ⟨l, a, b, h1, fun k => ?_⟩
  have := h2 (finProdFinEquiv k)
  simp only [X, Equiv.symm_apply_apply] at this
  exact this

end Renplex
