import Verif.Props.NetworkSize
import Verif.Spec.IntNet
/-!
# C77: convolutional and pooling layers commute with cutting out a window
-/

namespace Renplex
variable {α P : Type}

/-- The maps `x'` of size `r' × c'` are the windows of the maps `x` of size `r × c` whose upper left
corner is at row `s` and column `t`. -/
def Window (x x' : List (Mat α)) (n r c r' c' s t : Nat) : Prop :=
  s + r' ≤ r ∧ t + c' ≤ c ∧ ∃ X : Nat → Nat → Nat → α, MapsAre x n r c X
    ∧ MapsAre x' n r' c' fun ch i j => X ch (s + i) (t + j)

/-- How far two neighbouring outputs of a layer lie apart in its input. -/
def Layer.stride : Layer α → Nat × Nat
  | .reduce l => l.blockSize
  | _ => (1, 1)

/-- The same for layers one after the other. -/
def strides (ls : List (Layer α)) : Nat × Nat :=
  ((ls.map fun l => l.stride.1).prod, (ls.map fun l => l.stride.2).prod)

theorem corr_shift [BasicOps α] (kr kc : Nat) (x k : Nat → Nat → α) (s t i j : Nat) :
    corr kr kc (fun i j => x (s + i) (t + j)) k i j = corr kr kc x k (s + i) (t + j) := by
  simp only [corr, Nat.add_assoc]

theorem table_mapM_values {β γ : Type} [Nonempty γ] {r c : Nat} {f : Nat → Nat → β} {g : β → Option γ}
    {l : List γ} (h : (table r c f).mapM g = some l) :
    ∃ y : Nat → Nat → γ, ∀ i, i < r → ∀ j, j < c → g (f i j) = some (y i j) := by
  have key : ∀ i j, ∃ y, i < r → j < c → g (f i j) = some y := by
    intro i j
    by_cases hi : i < r
    · by_cases hj : j < c
      · obtain ⟨y, hy⟩ := (mapM_some_iff g _).mp ⟨l, h⟩ (f i j) (by
          unfold table
          exact List.mem_flatMap.mpr ⟨i, List.mem_range.mpr hi,
            List.mem_map.mpr ⟨j, List.mem_range.mpr hj, rfl⟩⟩)
        exact ⟨y, fun _ _ => hy⟩
      · exact ⟨Classical.arbitrary γ, fun _ h => absurd h hj⟩
    · exact ⟨Classical.arbitrary γ, fun h => absurd h hi⟩
  choose y hy using key
  exact ⟨y, fun i hi j hj => hy i j hi hj⟩

/-- When a convolutional layer returns, all its activations have. -/
theorem conv_values [CplxOps α P] {l : Conv α} {nf n p q r c : Nat}
    {K : Nat → Nat → Nat → Nat → α} {b : Nat → α} {f : ActFunc} (h : l.Is nf n p q K b f)
    (hf : 0 < nf) (hn : 0 < n) (hp : 1 ≤ p) (hpr : p ≤ r) (hq : 1 ≤ q) (hqc : q ≤ c)
    {maps : List (Mat α)} {X : Nat → Nat → Nat → α} (hX : MapsAre maps n r c X) {z}
    (hz : l.forward (.matrix maps) = some (.ok z)) :
    ∃ y : Nat → Nat → Nat → α, ∀ o, o < nf → ∀ i, i < r - p + 1 → ∀ j, j < c - q + 1 →
      CplxOps.activate f (BasicOps.addAssign (accN n fun ch => corr p q (X ch) (K o ch) i j) (b o))
        = some (y o i j) := by
  have ho := Conv.outShape_is h hf hn hp hpr hq hqc hX
  obtain ⟨-, hb, hfn, M, hk, hM⟩ := h
  obtain ⟨Mx, rfl, hMx⟩ := hX.exists_fun
  unfold Conv.forward at hz
  simp only [Option.bind_eq_bind] at hz
  rw [ho] at hz
  simp only [Option.bind_some, hk.1, List.length_map, List.length_range, ne_eq,
    not_true_eq_false, if_false] at hz
  rw [C18_rows hk hn, hb] at hz
  simp only [Option.bind_some] at hz
  rw [zip_range_map, mapM_map'] at hz
  obtain ⟨feats, h1, -⟩ := Option.bind_eq_some_iff.mp hz
  have : Nonempty α := ⟨BasicOps.zero⟩
  have key : ∀ o, ∃ y : Nat → Nat → α, o < nf → ∀ i, i < r - p + 1 → ∀ j, j < c - q + 1 →
      CplxOps.activate f (BasicOps.addAssign (accN n fun ch => corr p q (X ch) (K o ch) i j) (b o))
        = some (y i j) := by
    intro o
    by_cases ho' : o < nf
    · obtain ⟨m, hm⟩ := (mapM_some_iff _ _).mp ⟨feats, h1⟩ o (List.mem_range.mpr ho')
      simp only [Function.comp_def] at hm
      rw [Conv.feature_is hp hpr hq hqc hMx (hM o ho')] at hm
      simp only [Option.bind_some, Mat.fromBody, activateMut, hfn] at hm
      obtain ⟨body, h2, -⟩ := Option.bind_eq_some_iff.mp hm
      obtain ⟨y, hy⟩ := table_mapM_values h2
      exact ⟨y, fun _ => hy⟩
    · exact ⟨fun _ _ => BasicOps.zero, fun h => absurd h ho'⟩
  choose y hy using key
  exact ⟨y, hy⟩

/-- C77 for the matrix operation: convolving a window gives the window of the convolution. -/
theorem C77_convolution [BasicOps α] {m m' k : Mat α} {r c r' c' kr kc s t : Nat} {f g : Nat → Nat → α}
    (hm : m.Is r c f) (hm' : m'.Is r' c' fun i j => f (s + i) (t + j)) (hk : k.Is kr kc g)
    (h1 : 1 ≤ kr) (h2 : kr ≤ r') (h3 : 1 ≤ kc) (h4 : kc ≤ c') (hs : s + r' ≤ r) (ht : t + c' ≤ c) :
    ∃ y y' F, m.convolution k = some (.ok y) ∧ m'.convolution k = some (.ok y')
      ∧ y.Is (r - kr + 1) (c - kc + 1) F
      ∧ y'.Is (r' - kr + 1) (c' - kc + 1) fun i j => F (s + i) (t + j) := by
  obtain ⟨y, e1, e2⟩ := C12_convolution hm hk h1 (by omega) h3 (by omega)
  obtain ⟨y', e3, e4⟩ := C12_convolution hm' hk h1 h2 h3 h4
  refine ⟨y, y', _, e1, e3, e2, e4.1, e4.2.trans (table_congr fun i _ j _ => ?_)⟩
  exact corr_shift _ _ _ _ _ _ _ _

/-- C77 for one convolutional or pooling layer, in any arithmetic: if the layer fits the maps and the
windows, and returns on the maps, then it returns on the windows, and what it returns are the windows
of its result. Windows of pooling layers must begin at the corner of a block. -/
theorem C77_layer [CplxOps α P] {l : Layer α} (hw : l.WF) {n r c n₁ r₁ c₁ r' c' r₁' c₁' s t : Nat}
    (hl : l.Fits (.maps n r c) (.maps n₁ r₁ c₁)) (hl' : l.Fits (.maps n r' c') (.maps n₁ r₁' c₁'))
    {x x' : List (Mat α)} (hx : Window x x' n r c r' c' (s * l.stride.1) (t * l.stride.2))
    {z : IOType α} (hz : l.forward (.matrix x) = some (.ok z)) :
    ∃ y y', z = .matrix y ∧ l.forward (.matrix x') = some (.ok (.matrix y'))
      ∧ Window y y' n₁ r₁ c₁ r₁' c₁' s t := by
  have : Nonempty α := ⟨BasicOps.zero⟩
  obtain ⟨hs, ht, X, hX, hX'⟩ := hx
  cases l with
  | dense l => exact hl.elim
  | flatten l => exact hl.elim
  | conv l =>
    obtain ⟨hn, hf, hsh, p, q, hk, hp, hpr, hq, hqc, rfl, rfl⟩ := hl
    obtain ⟨-, -, -, p', q', hk', -, hpr', -, hqc', rfl, rfl⟩ := hl'
    have hne : l.kernels.body ≠ [] := by
      intro h
      have h0 := hw.1
      rw [Mat.Rect, h, hsh] at h0
      have := Nat.mul_pos hf hn
      simp only [List.length_nil] at h0
      omega
    obtain ⟨k, hkm⟩ := List.exists_mem_of_ne_nil _ hne
    have e := (hk k hkm).symm.trans (hk' k hkm)
    cases e
    obtain ⟨K, b, hI⟩ := Conv.exists_is hw hk
    rw [hsh] at hI
    simp only [Layer.stride, Nat.mul_one] at hs ht hX'
    obtain ⟨Y, hY⟩ := conv_values hI hf hn hp hpr hq hqc hX hz
    obtain ⟨y, e1, e2⟩ := C40_forward hI hf hn hp hpr hq hqc hX Y hY
    obtain ⟨y', e3, e4⟩ := C40_forward hI hf hn hp hpr' hq hqc' hX' (fun o i j => Y o (s + i) (t + j))
      (fun o ho i hi j hj => by
        simp only [corr_shift]
        exact hY o ho (s + i) (by omega) (t + j) (by omega))
    have e5 : l.forward (.matrix x) = some (.ok z) := hz
    rw [e1] at e5
    cases e5
    exact ⟨y, y', rfl, e3, by omega, by omega, Y, e2, e4⟩
  | reduce l =>
    obtain ⟨rfl, -, hr, hc, hp, hq, rfl, rfl⟩ := hl
    obtain ⟨-, -, hr', hc', -, -, rfl, rfl⟩ := hl'
    simp only [Layer.stride] at hs ht hX'
    have hs' : s + r₁' ≤ r₁ := Nat.le_of_mul_le_mul_right (by rwa [Nat.add_mul]) hp
    have ht' : t + c₁' ≤ c₁ := Nat.le_of_mul_le_mul_right (by rwa [Nat.add_mul]) hq
    have hz' : l.forward (.matrix x) = some (.ok z) := hz
    obtain ⟨outs, rfl, ho1, ho2⟩ := (C41_reduce_iff l x z).mp hz'
    have key : ∀ ch i j, ∃ y, ch < n → i < r₁ → j < c₁ →
        l.blockFunc ((List.range l.blockSize.1).flatMap fun a => (List.range l.blockSize.2).map fun b =>
          X ch (i * l.blockSize.1 + a) (j * l.blockSize.2 + b)) = some y := by
      intro ch i j
      by_cases h : ch < n ∧ i < r₁ ∧ j < c₁
      · cases hb : l.blockFunc ((List.range l.blockSize.1).flatMap fun a =>
            (List.range l.blockSize.2).map fun b =>
              X ch (i * l.blockSize.1 + a) (j * l.blockSize.2 + b)) with
        | some y => exact ⟨y, fun _ _ _ => rfl⟩
        | none =>
          have hch : ch < x.length := by rw [hX.1]; exact h.1
          have := ho2 ch hch (by omega)
          rw [C15_panic (hX.2 ch _ (List.getElem?_eq_getElem hch)) hp hq l.blockFunc i j h.2.1
            h.2.2 hb] at this
          cases this
      · exact ⟨BasicOps.zero, fun h1 h2 h3 => absurd ⟨h1, h2, h3⟩ h⟩
    choose Y hY using key
    obtain ⟨y, e1, e2⟩ := C41_reduce (l := l) rfl hp hq hr hc hX (Y := Y)
      fun ch hch i hi j hj => hY ch i j hch hi hj
    obtain ⟨y', e3, e4⟩ := C41_reduce (l := l) rfl hp hq hr' hc' hX'
      (Y := fun ch i j => Y ch (s + i) (t + j)) fun ch hch i hi j hj => by
        have := hY ch (s + i) (t + j) hch (by omega) (by omega)
        simp only [Nat.add_mul, Nat.add_assoc] at this ⊢
        exact this
    rw [e1] at hz'
    injection hz' with hz'
    injection hz' with hz'
    exact ⟨y, y', hz'.symm, e3, hs', ht', Y, e2, e4⟩

theorem fitsChain_maps {ls : List (Layer α)} {u : Nat} {s : Size} (h : FitsChain ls (.vec u) s) :
    ∃ v, s = .vec v := by
  induction ls generalizing u with
  | nil => cases h; exact ⟨u, rfl⟩
  | cons l ls ih =>
    cases h with
    | cons a b =>
      rename_i σ
      cases σ with
      | vec v => exact ih b
      | maps m p q => cases l <;> exact a.elim

theorem window_chain [CplxOps α P] {ls : List (Layer α)} (hw : ∀ l ∈ ls, l.WF)
    {n r c n₁ r₁ c₁ r' c' r₁' c₁' s t : Nat} (hl : FitsChain ls (.maps n r c) (.maps n₁ r₁ c₁))
    (hl' : FitsChain ls (.maps n r' c') (.maps n₁ r₁' c₁')) {x x' : List (Mat α)}
    (hx : Window x x' n r c r' c' (s * (strides ls).1) (t * (strides ls).2))
    {ys : List (IOType α)} (hc : Chain ls (.matrix x) ys) :
    ∃ ys' y y', Chain ls (.matrix x') ys' ∧ (IOType.matrix x :: ys).getLast? = some (.matrix y)
      ∧ (IOType.matrix x' :: ys').getLast? = some (.matrix y')
      ∧ Window y y' n₁ r₁ c₁ r₁' c₁' s t := by
  induction ls generalizing n r c r' c' x x' ys with
  | nil =>
    cases hl; cases hl'; cases hc
    simp only [strides, List.map_nil, List.prod_nil, Nat.mul_one] at hx
    exact ⟨[], x, x', .nil _, rfl, rfl, hx⟩
  | cons l ls ih =>
    cases hl with
    | cons a b =>
      cases hl' with
      | cons a' b' =>
        rename_i σ σ'
        cases σ with
        | vec u => obtain ⟨v, hv⟩ := fitsChain_maps b; cases hv
        | maps m p q =>
          cases σ' with
          | vec u => obtain ⟨v, hv⟩ := fitsChain_maps b'; cases hv
          | maps m' p' q' =>
            have hm : m = m' := by
              cases l with
              | dense l => exact a.elim
              | flatten l => exact a.elim
              | conv l => have := a.2.2.1.symm.trans a'.2.2.1; cases this; rfl
              | reduce l => exact a.1.symm.trans a'.1
            subst hm
            cases hc with
            | cons h t' =>
              have e1 : s * (strides (l :: ls)).1 = s * (strides ls).1 * l.stride.1 := by
                simp only [strides, List.map_cons, List.prod_cons]; ring
              have e2 : t * (strides (l :: ls)).2 = t * (strides ls).2 * l.stride.2 := by
                simp only [strides, List.map_cons, List.prod_cons]; ring
              rw [e1, e2] at hx
              obtain ⟨y, y', rfl, h2, h3⟩ := C77_layer (hw l (by simp)) a a' hx h
              obtain ⟨ys', z, z', k1, k2, k3, k4⟩ := ih (fun l hl => hw l (by simp [hl])) b b' h3 t'
              refine ⟨.matrix y' :: ys', z, z', .cons h2 k1, ?_, ?_, k4⟩
              · rw [List.getLast?_cons_cons]; exact k2
              · rw [List.getLast?_cons_cons]; exact k3

/-- C77 for a network of convolutional and pooling layers in any number and order, in any arithmetic:
if the network fits the maps and the windows, and returns on the maps, then on the windows it returns
the windows of that result. A window of the input beginning at the corner of a block, `(s,t)` times
the product of the block sizes, gives the window beginning at `(s,t)`. -/
theorem C77_network [CplxOps α P] (net : Net α) (hn : net.layers ≠ []) (hw : ∀ l ∈ net.layers, l.WF)
    {n r c n₁ r₁ c₁ r' c' r₁' c₁' s t : Nat}
    (hl : FitsChain net.layers (.maps n r c) (.maps n₁ r₁ c₁))
    (hl' : FitsChain net.layers (.maps n r' c') (.maps n₁ r₁' c₁')) {x x' : List (Mat α)}
    (hx : Window x x' n r c r' c' (s * (strides net.layers).1) (t * (strides net.layers).2))
    {z : IOType α} (hz : net.forward (.matrix x) = some (.ok z)) :
    ∃ y y', z = .matrix y ∧ net.forward (.matrix x') = some (.ok (.matrix y'))
      ∧ Window y y' n₁ r₁ c₁ r₁' c₁' s t := by
  obtain ⟨ys, z', h1, h2, h3⟩ := (C44_forward net hn _ _).mp hz
  cases h3
  obtain ⟨ys', y, y', k1, k2, k3, k4⟩ := window_chain hw hl hl' hx h1
  have hne : ∀ (a : IOType α) (l : List (IOType α)), Chain net.layers a l →
      (a :: l).getLast? = l.getLast? := by
    intro a l h
    cases l with
    | nil => have := h.length; exact absurd (List.length_eq_zero_iff.mp (by simpa using this.symm)) hn
    | cons b l => rw [List.getLast?_cons_cons]
  rw [hne _ _ h1, h2] at k2
  rw [hne _ _ k1] at k3
  cases k2
  exact ⟨y, y', rfl, (C44_forward net hn _ _).mpr ⟨ys', _, k1, k3, rfl⟩, k4⟩

/-- The window at row 0, column 1 of a 1 × 3 map, under a 1 × 2 convolution. -/
example : (Mat.fromBody [1, 2, 3] (1, 3) : Mat Int).convolution (Mat.fromBody [1, -1] (1, 2))
      = some (.ok (Mat.fromBody [-1, -1] (1, 2)))
    ∧ (Mat.fromBody [2, 3] (1, 2) : Mat Int).convolution (Mat.fromBody [1, -1] (1, 2))
      = some (.ok (Mat.fromBody [-1] (1, 1)))
    ∧ Window [(Mat.fromBody [1, 2, 3] (1, 3) : Mat Int)] [Mat.fromBody [2, 3] (1, 2)] 1 1 3 1 2 0 1 := by
  refine ⟨rfl, rfl, by omega, by omega, fun _ _ j => j + 1, ⟨rfl, fun ch m h => ?_⟩,
    ⟨rfl, fun ch m h => ?_⟩⟩
  all_goals
    match ch with
    | 0 => obtain rfl : _ = m := by simpa using h
           exact ⟨rfl, rfl⟩
    | k + 1 => simp at h

/-- The hypotheses of `C77_network` can be met by a convolution followed by pooling. -/
example (k b : Int) (f : List Int → Run Int) (g : ActFunc) :
    let net : Net Int := ⟨[.conv ⟨1, Mat.fromBody [Mat.fromBody [k] (1, 1)] (1, 1), [b], g⟩,
      .reduce (Reduce.init 1 (2, 2) f (Mat.fromBody [0, 0, 0, 0, 1, 0, 0, 0, 0] (3, 3)))]⟩
    (∀ l ∈ net.layers, l.WF) ∧ FitsChain net.layers (.maps 1 4 4) (.maps 1 2 2)
      ∧ FitsChain net.layers (.maps 1 2 2) (.maps 1 1 1) ∧ strides net.layers = (2, 2) := by
  refine ⟨?_, ?_, ?_, rfl⟩
  · intro l hl
    simp only [List.mem_cons, List.not_mem_nil, or_false] at hl
    rcases hl with rfl | rfl
    · refine ⟨rfl, rfl, rfl, ?_, (1, 1), ?_⟩ <;> simp [Mat.fromBody, Mat.Rect]
    · exact trivial
  · refine .cons (s₁ := .maps 1 4 4) ⟨by omega, by omega, rfl, 1, 1, by simp [Mat.fromBody], by omega,
      by omega, by omega, by omega, rfl, rfl⟩ (.cons ?_ (.nil _))
    exact ⟨rfl, rfl, by omega, by omega, Nat.zero_lt_two, Nat.zero_lt_two, rfl, rfl⟩
  · refine .cons (s₁ := .maps 1 2 2) ⟨by omega, by omega, rfl, 1, 1, by simp [Mat.fromBody], by omega,
      by omega, by omega, by omega, rfl, rfl⟩ (.cons ?_ (.nil _))
    exact ⟨rfl, rfl, by omega, by omega, Nat.zero_lt_two, Nat.zero_lt_two, rfl, rfl⟩

end Renplex
