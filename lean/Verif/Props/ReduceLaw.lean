import Verif.Spec.Pooling
import Verif.Model.Examples
import Verif.Props.ConvLaw
import Verif.Props.TrainTotal
/-!
# C67: the derivatives of a pooling layer
-/

namespace Renplex
open Filter Topology ComplexConjugate

section shape
variable {α : Type} [BasicOps α]

/-- What the up-sampling step makes of one map `f` of derivatives. -/
def upMap (r c p q : Nat) (k f : Nat → Nat → α) : Nat → Nat → α :=
  corr 3 3 (padded (r * p) (c * q) 1 1 (spread p q (upOff p) (leftOff p q) f)) k

theorem leftOff_lt {p q : Nat} (hq : 0 < q) (hodd : q % 2 = 1 → (p - 1) / 2 < q) :
    leftOff p q < q := by
  unfold leftOff
  by_cases h : q % 2 = 0
  · rw [if_pos h]; omega
  · rw [if_neg h]; exact hodd (by omega)

theorem upOff_lt {p : Nat} (hp : 0 < p) : upOff p < p := by unfold upOff; split <;> omega

theorem upMap_is {m k : Mat α} {r c p q : Nat} {f g : Nat → Nat → α} (hm : m.Is r c f)
    (hk : k.Is 3 3 g) (hr : 0 < r) (hc : 0 < c) (hp : 0 < p) (hq : 0 < q)
    (hodd : q % 2 = 1 → (p - 1) / 2 < q) :
    ∃ m', m.fractionalUpsampling (p, q) k = some (.ok m')
      ∧ m'.Is (r * p) (c * q) (upMap r c p q g f) := by
  have e1 : 0 < r * p := Nat.mul_pos hr hp
  have e2 : 0 < c * q := Nat.mul_pos hc hq
  refine ⟨_, upsampling_eq hm hk hc hp hq (leftOff_lt hq hodd) rfl rfl (by omega) (by omega)
    (by omega), ?_⟩
  have e3 : r * p + 2 * (3 - 2) - 3 + 1 = r * p := by omega
  have e4 : c * q + 2 * (3 - 2) - 3 + 1 = c * q := by omega
  rw [e3, e4]
  exact ⟨rfl, rfl⟩

theorem Reduce.derivLoop_is {l : Reduce α} {p q : Nat} (hs : l.blockSize = (p, q))
    {k : Nat → Nat → α} (hk : l.interpKernel.Is 3 3 k) (hp : 0 < p) (hq : 0 < q)
    (hodd : q % 2 = 1 → (p - 1) / 2 < q) {r c : Nat} (hr : 0 < r) (hc : 0 < c)
    (G GC : Nat → Nat → Nat → α) (ks : List Nat) (maps : List (Mat α))
    (hl : maps.length = ks.length) (hm : ∀ m ∈ maps, m.shape = (r * p, c * q)) :
    l.derivLoop maps (ks.map fun o => table r c (G o)) (ks.map fun o => table r c (GC o))
      = some (ks.flatMap fun o => table (r * p) (c * q) (upMap r c p q k (G o)),
        ks.flatMap fun o => table (r * p) (c * q) (upMap r c p q k (GC o))) := by
  induction maps generalizing ks with
  | nil => cases ks with
    | nil => rfl
    | cons o ks => simp at hl
  | cons m maps ih => cases ks with
    | nil => simp at hl
    | cons o ks =>
      unfold Reduce.derivLoop
      rw [hm m (by simp), hs]
      have w1 : Reduce.udiv (r * p) p = some r := by
        unfold Reduce.udiv; rw [if_neg (by omega), Nat.mul_div_cancel _ hp]
      have w2 : Reduce.udiv (c * q) q = some c := by
        unfold Reduce.udiv; rw [if_neg (by omega), Nat.mul_div_cancel _ hq]
      have ht : ∀ f : Nat → Nat → α, Mat.toMatrix (table r c f) (r, c)
          = .ok (Mat.fromBody (table r c f) (r, c)) := by
        intro f
        unfold Mat.toMatrix
        rw [if_neg (by simp [table_length])]
      obtain ⟨m1, f1, f2⟩ := upMap_is (Mat.fromBody_is r c (G o)) hk hr hc hp hq hodd
      obtain ⟨m2, g1, g2⟩ := upMap_is (Mat.fromBody_is r c (GC o)) hk hr hc hp hq hodd
      simp only [w1, w2, Option.bind_eq_bind, Option.bind_some, List.map_cons, List.head?_cons,
        List.tail_cons, ht, f1, g1, unwrap, ih ks (by simpa using hl) fun m h => hm m (by simp [h]),
        f2.2, g2.2, List.flatMap_cons]

theorem cube_eq_table (n r c : Nat) (F : Nat → Nat → Nat → α) :
    ∃ f, cube n r c F = table n (r * c) f
      ∧ ∀ o, o < n → (List.range (r * c)).map (f o) = table r c (F o) := by
  have : Nonempty α := ⟨BasicOps.zero⟩
  refine ⟨fun o k => F o (k / c) (k % c), ?_, ?_⟩
  · unfold cube
    rw [show table n (r * c) (fun o k => F o (k / c) (k % c)) = (List.range n).flatMap
      fun o => (List.range (r * c)).map fun k => F o (k / c) (k % c) from rfl]
    congr 1
    funext o
    rw [range_map_mul]
    exact table_congr fun i _ j hj => by
      rw [Nat.mul_comm i c, Nat.mul_add_div (by omega), Nat.mul_add_mod, Nat.div_eq_of_lt hj,
        Nat.mod_eq_of_lt hj, Nat.add_zero]
  · intro o _
    rw [range_map_mul]
    exact table_congr fun i _ j hj => by
      simp only
      rw [Nat.mul_comm i c, Nat.mul_add_div (by omega), Nat.mul_add_mod, Nat.div_eq_of_lt hj,
        Nat.mod_eq_of_lt hj, Nat.add_zero]

theorem chunks_cube (n r c : Nat) (hr : 0 < r) (hc : 0 < c) (F : Nat → Nat → Nat → α) :
    chunks (r * c) (cube n r c F) = some ((List.range n).map fun o => table r c (F o)) := by
  obtain ⟨f, h1, h2⟩ := cube_eq_table n r c F
  rw [h1, chunks_table _ _ _ (Nat.mul_pos hr hc)]
  congr 1
  exact List.map_congr_left fun o ho => h2 o (List.mem_range.mp ho)

/-- The derivatives a pooling layer returns, in any arithmetic. -/
theorem Reduce.computeDerivatives_is {l : Reduce α} {p q : Nat} (hs : l.blockSize = (p, q))
    {k : Nat → Nat → α} (hk : l.interpKernel.Is 3 3 k) (hp : 0 < p) (hq : 0 < q)
    (hodd : q % 2 = 1 → (p - 1) / 2 < q) {n r c : Nat} (hn : 0 < n) (hr : 0 < r) (hc : 0 < c)
    (G GC : Nat → Nat → Nat → α) (maps : List (Mat α))
    (hl : maps.length = n) (hm : ∀ m ∈ maps, m.shape = (r * p, c * q)) :
    l.computeDerivatives (.matrix maps) (cube n r c G) (cube n r c GC)
      = some (.ok ([], [], cube n (r * p) (c * q) fun o => upMap r c p q k (G o),
        cube n (r * p) (c * q) fun o => upMap r c p q k (GC o))) := by
  unfold Reduce.computeDerivatives
  have w : Reduce.udiv (cube n r c G).length maps.length = some (r * c) := by
    unfold Reduce.udiv
    rw [hl, if_neg (by omega), cube_length, Nat.mul_div_cancel_left _ hn]
  simp only [w, Option.bind_eq_bind, Option.bind_some, chunks_cube n r c hr hc]
  rw [Reduce.derivLoop_is hs hk hp hq hodd hr hc G GC (List.range n) maps (by simpa using hl) hm]
  rfl

end shape

section ring
variable {α : Type} [CommRing α] [BasicOps α] [LawfulOps α]

theorem mul_add_inj {p a b i j : Nat} (ha : a < p) (hb : b < p) (h : i * p + a = j * p + b) :
    i = j ∧ a = b := by
  have h1 : (i * p + a) / p = (j * p + b) / p := by rw [h]
  have h2 : (i * p + a) % p = (j * p + b) % p := by rw [h]
  rw [Nat.mul_comm i, Nat.mul_comm j, Nat.mul_add_div (by omega), Nat.mul_add_div (by omega),
    Nat.div_eq_of_lt ha, Nat.div_eq_of_lt hb] at h1
  rw [Nat.mul_comm i, Nat.mul_comm j, Nat.mul_add_mod, Nat.mul_add_mod, Nat.mod_eq_of_lt ha,
    Nat.mod_eq_of_lt hb] at h2
  omega

theorem upMap_sum (r c p q : Nat) (k f : Nat → Nat → α) (i j : Nat) :
    upMap r c p q k f i j = ∑ a ∈ Finset.range 3, ∑ b ∈ Finset.range 3,
      (if 1 ≤ i + a ∧ i + a < 1 + r * p ∧ 1 ≤ j + b ∧ j + b < 1 + c * q then
        if (i + a - 1) % p = upOff p ∧ (j + b - 1) % q = leftOff p q
          then f ((i + a - 1) / p) ((j + b - 1) / q) else 0 else 0) * k a b := by
  unfold upMap
  rw [corr_sum]
  refine Finset.sum_congr rfl fun a _ => Finset.sum_congr rfl fun b _ => ?_
  unfold padded spread
  simp only [LawfulOps.zero_eq]

/-- With the turned kernel, up-sampling is the transpose of the pooling. -/
theorem upMap_transposed {r c p q : Nat} {W k : Nat → Nat → α} (hp : 0 < p) (hq : 0 < q)
    (hl : leftOff p q < q) (h : Transposed p q (upOff p) (leftOff p q) W k) (f : Nat → Nat → α)
    {i j : Nat} (hi : i < r * p) (hj : j < c * q) :
    upMap r c p q k f i j = poolBack p q W f i j := by
  have hu := upOff_lt hp
  rw [upMap_sum]
  unfold poolBack
  generalize upOff p = u at *
  generalize leftOff p q = v at *
  have hia := Nat.mod_lt i hp
  have hja := Nat.mod_lt j hq
  have hid : i = i / p * p + i % p := by rw [Nat.mul_comm]; exact (Nat.div_add_mod i p).symm
  have hjd : j = j / q * q + j % q := by rw [Nat.mul_comm]; exact (Nat.div_add_mod j q).symm
  -- the only place of the kernel that matters
  have key : ∀ (p i u a : Nat), 0 < p → u < p → 1 ≤ i + a → (i + a - 1) % p = u → a ≤ u + 1 →
      u + 1 - a < p → u + 1 = i % p + a ∧ (i + a - 1) / p = i / p := by
    intro p i u a hp hu h1 h2 h3 h4
    have e1 : i + a - 1 = (i + a - 1) / p * p + u := by
      rw [← h2, Nat.mul_comm]; exact (Nat.div_add_mod _ p).symm
    have e2 : i = i / p * p + i % p := by rw [Nat.mul_comm]; exact (Nat.div_add_mod i p).symm
    have e3 : (i + a - 1) / p * p + (u + 1 - a) = i / p * p + i % p := by omega
    obtain ⟨e4, e5⟩ := mul_add_inj h4 (Nat.mod_lt i hp) e3
    exact ⟨by omega, e4⟩
  by_cases hreach : i % p + 1 < u ∨ u + 1 < i % p ∨ j % q + 1 < v ∨ v + 1 < j % q
  · rw [h.2 _ hia _ hja hreach, mul_zero]
    refine Finset.sum_eq_zero fun a ha => Finset.sum_eq_zero fun b hb => ?_
    rw [Finset.mem_range] at ha hb
    split
    · split
      · rename_i h1 h2
        rw [h.1 a ha b hb]
        split
        · rename_i h3
          have k1 := key p i u a hp hu h1.1 h2.1 h3.1 h3.2.1
          have k2 := key q j v b hq hl h1.2.2.1 h2.2 h3.2.2.1 h3.2.2.2
          omega
        · rw [mul_zero]
      · rw [zero_mul]
    · rw [zero_mul]
  · push Not at hreach
    obtain ⟨r1, r2, r3, r4⟩ := hreach
    rw [Finset.sum_eq_single (u + 1 - i % p)]
    · rw [Finset.sum_eq_single (v + 1 - j % q)]
      · have b1 : i / p * p + p ≤ r * p := by
          have := Nat.div_lt_of_lt_mul (Nat.mul_comm r p ▸ hi)
          rw [← Nat.succ_mul]
          exact Nat.mul_le_mul_right _ this
        have b2 : j / q * q + q ≤ c * q := by
          have := Nat.div_lt_of_lt_mul (Nat.mul_comm c q ▸ hj)
          rw [← Nat.succ_mul]
          exact Nat.mul_le_mul_right _ this
        have d1 : u + 1 - (u + 1 - i % p) = i % p := by omega
        have d2 : v + 1 - (v + 1 - j % q) = j % q := by omega
        have d3 := h.1 (u + 1 - i % p) (by omega) (v + 1 - j % q) (by omega)
        rw [if_pos (by omega), d1, d2] at d3
        rw [if_pos (by omega), d3]
        have e1 : i + (u + 1 - i % p) - 1 = i / p * p + u := by omega
        have e2 : j + (v + 1 - j % q) - 1 = j / q * q + v := by omega
        rw [e1, e2, if_pos, Nat.mul_comm (i / p) p, Nat.mul_comm (j / q) q, Nat.mul_add_div hp,
          Nat.mul_add_div hq, Nat.div_eq_of_lt hu, Nat.div_eq_of_lt hl]
        · simp
        · rw [Nat.mul_comm (i / p) p, Nat.mul_comm (j / q) q, Nat.mul_add_mod, Nat.mul_add_mod,
            Nat.mod_eq_of_lt hu, Nat.mod_eq_of_lt hl]
          exact ⟨rfl, rfl⟩
      · intro b hb hne
        rw [Finset.mem_range] at hb
        split
        · split
          · rename_i h1 h2
            rw [h.1 _ (by omega) b hb]
            split
            · rename_i h3
              have k2 := key q j v b hq hl h1.2.2.1 h2.2 h3.2.2.1 h3.2.2.2
              omega
            · rw [mul_zero]
          · rw [zero_mul]
        · rw [zero_mul]
      · intro hb
        rw [Finset.mem_range] at hb
        omega
    · intro a ha hne
      rw [Finset.mem_range] at ha
      refine Finset.sum_eq_zero fun b hb => ?_
      rw [Finset.mem_range] at hb
      split
      · split
        · rename_i h1 h2
          rw [h.1 a ha b hb]
          split
          · rename_i h3
            have k1 := key p i u a hp hu h1.1 h2.1 h3.1 h3.2.1
            omega
          · rw [mul_zero]
        · rw [zero_mul]
      · rw [zero_mul]
    · intro hb
      rw [Finset.mem_range] at hb
      omega

/-- Up-sampling the map with a single one. -/
theorem upMap_single {r c p q : Nat} (k : Nat → Nat → α) (hp : 0 < p) (hq : 0 < q)
    (hl : leftOff p q < q) {I J i j a b : Nat} (hI : I < r) (hJ : J < c) (ha : a < 3) (hb : b < 3)
    (hi : i + a = I * p + upOff p + 1) (hj : j + b = J * q + leftOff p q + 1) :
    upMap r c p q k (fun x y => if x = I ∧ y = J then 1 else 0) i j = k a b := by
  have hu := upOff_lt hp
  rw [upMap_sum]
  generalize upOff p = u at *
  generalize leftOff p q = v at *
  have b1 : I * p + p ≤ r * p := by rw [← Nat.succ_mul]; exact Nat.mul_le_mul_right _ hI
  have b2 : J * q + q ≤ c * q := by rw [← Nat.succ_mul]; exact Nat.mul_le_mul_right _ hJ
  have key : ∀ x p I u : Nat, x % p = u → x / p = I → x = I * p + u := by
    intro x p I u h1 h2
    rw [← h1, ← h2, Nat.mul_comm]
    exact (Nat.div_add_mod x p).symm
  rw [Finset.sum_eq_single a, Finset.sum_eq_single b]
  · rw [if_pos (by omega)]
    have e1 : i + a - 1 = p * I + u := by rw [hi, Nat.mul_comm]; rfl
    have e2 : j + b - 1 = q * J + v := by rw [hj, Nat.mul_comm]; rfl
    rw [e1, e2, Nat.mul_add_mod, Nat.mul_add_mod, Nat.mul_add_div hp, Nat.mul_add_div hq,
      Nat.mod_eq_of_lt hu, Nat.mod_eq_of_lt hl, Nat.div_eq_of_lt hu, Nat.div_eq_of_lt hl]
    simp
  · intro b' hb' hne
    split
    · split
      · split
        · rename_i h1 h2 h3
          have := key _ _ _ _ h2.2 h3.2
          omega
        · rw [zero_mul]
      · rw [zero_mul]
    · rw [zero_mul]
  · intro h; rw [Finset.mem_range] at h; omega
  · intro a' ha' hne
    refine Finset.sum_eq_zero fun b' _ => ?_
    split
    · split
      · split
        · rename_i h1 h2 h3
          have := key _ _ _ _ h2.1 h3.1
          omega
        · rw [zero_mul]
      · rw [zero_mul]
    · rw [zero_mul]
  · intro h; rw [Finset.mem_range] at h; omega

/-- Only with the turned kernel is up-sampling the transpose of the pooling. -/
theorem transposed_of_upMap {r c p q : Nat} {W k : Nat → Nat → α} (hp : 0 < p) (hq : 0 < q)
    (hl : leftOff p q < q) (hr : 2 ≤ r) (hc : 2 ≤ c)
    (h : ∀ I J : Nat, ∀ i, i < r * p → ∀ j, j < c * q →
      upMap r c p q k (fun x y => if x = I ∧ y = J then 1 else 0) i j
        = poolBack p q W (fun x y => if x = I ∧ y = J then 1 else 0) i j) :
    Transposed p q (upOff p) (leftOff p q) W k := by
  have hu := upOff_lt hp
  have b1 : 2 * p ≤ r * p := Nat.mul_le_mul_right _ hr
  have b2 : 2 * q ≤ c * q := Nat.mul_le_mul_right _ hc
  -- a place where the kernel entry shows
  have place : ∀ p u a : Nat, 0 < p → u < p → a < 3 → ∃ I i, I < 2 ∧ i < 2 * p
      ∧ i + a = I * p + u + 1 := by
    intro p u a hp hu ha
    by_cases h2 : a ≤ u + 1
    · exact ⟨0, u + 1 - a, by omega, by omega, by omega⟩
    · exact ⟨1, p + u + 1 - a, by omega, by omega, by omega⟩
  have key : ∀ p u a I i : Nat, 0 < p → u < p → i + a = I * p + u + 1 →
      (i / p = I ↔ a ≤ u + 1 ∧ u + 1 - a < p) ∧ (i / p = I → i % p = u + 1 - a) := by
    intro p u a I i hp hu hia
    have e := Nat.div_add_mod i p
    have e' := Nat.mod_lt i hp
    have h1 : i / p = I → i = I * p + i % p := by
      intro h; rw [h, Nat.mul_comm] at e; omega
    refine ⟨⟨fun h => ?_, fun h => ?_⟩, fun h => ?_⟩
    · have := h1 h; omega
    · have : i = p * I + (u + 1 - a) := by rw [Nat.mul_comm]; omega
      rw [this, Nat.mul_add_div hp, Nat.div_eq_of_lt h.2, Nat.add_zero]
    · have := h1 h; omega
  constructor
  · intro a ha b hb
    obtain ⟨I, i, hI, hi, hia⟩ := place p (upOff p) a hp hu ha
    obtain ⟨J, j, hJ, hj, hjb⟩ := place q (leftOff p q) b hq hl hb
    have h1 := h I J i (by omega) j (by omega)
    rw [upMap_single k hp hq hl (by omega) (by omega) ha hb hia hjb] at h1
    rw [h1]
    unfold poolBack
    beta_reduce
    obtain ⟨k1, k2⟩ := key p _ a I i hp hu hia
    obtain ⟨k3, k4⟩ := key q _ b J j hq hl hjb
    by_cases hIJ : i / p = I ∧ j / q = J
    · rw [if_pos hIJ, one_mul, k2 hIJ.1, k4 hIJ.2, if_pos]
      have := k1.mp hIJ.1
      have := k3.mp hIJ.2
      omega
    · rw [if_neg hIJ, zero_mul, if_neg]
      intro h
      exact hIJ ⟨k1.mpr ⟨h.1, h.2.1⟩, k3.mpr ⟨h.2.2.1, h.2.2.2⟩⟩
  · intro a ha b hb hreach
    have h1 := h 0 0 a (by omega) b (by omega)
    unfold poolBack at h1
    beta_reduce at h1
    rw [Nat.div_eq_of_lt ha, Nat.div_eq_of_lt hb, Nat.mod_eq_of_lt ha, Nat.mod_eq_of_lt hb,
      if_pos ⟨rfl, rfl⟩, one_mul] at h1
    rw [← h1, upMap_sum]
    refine Finset.sum_eq_zero fun a' ha' => Finset.sum_eq_zero fun b' hb' => ?_
    rw [Finset.mem_range] at ha' hb'
    split
    · split
      · split
        · rename_i h2 h3 h4
          have e1 := Nat.div_add_mod (a + a' - 1) p
          have e2 := Nat.div_add_mod (b + b' - 1) q
          rw [h3.1, h4.1] at e1
          rw [h3.2, h4.2] at e2
          omega
        · rw [zero_mul]
      · rw [zero_mul]
    · rw [zero_mul]

end ring

theorem sum_range_mul {α : Type} [AddCommMonoid α] (r p : Nat) (f : Nat → α) :
    ∑ k ∈ Finset.range (r * p), f k
      = ∑ i ∈ Finset.range r, ∑ a ∈ Finset.range p, f (i * p + a) := by
  induction r with
  | zero => simp
  | succ r ih => rw [Nat.succ_mul, Finset.sum_range_add, ih, Finset.sum_range_succ]

/-- Moving the weights to the other side. -/
theorem pool_adjoint {α : Type} [CommRing α] (n r c p q : Nat) (W : Nat → Nat → α)
    (G V : Nat → Nat → Nat → α) :
    ∑ o ∈ Finset.range n, ∑ i ∈ Finset.range r, ∑ j ∈ Finset.range c, G o i j
        * ∑ a ∈ Finset.range p, ∑ b ∈ Finset.range q, W a b * V o (i * p + a) (j * q + b)
      = ∑ o ∈ Finset.range n, ∑ i ∈ Finset.range (r * p), ∑ j ∈ Finset.range (c * q),
        poolBack p q W (G o) i j * V o i j := by
  refine Finset.sum_congr rfl fun o _ => ?_
  rw [sum_range_mul]
  refine Finset.sum_congr rfl fun i _ => ?_
  have e1 : ∀ a, a < p → ∑ j ∈ Finset.range (c * q),
      poolBack p q W (G o) (i * p + a) j * V o (i * p + a) j
      = ∑ j ∈ Finset.range c, ∑ b ∈ Finset.range q,
        G o i j * (W a b * V o (i * p + a) (j * q + b)) := by
    intro a ha
    rw [sum_range_mul]
    refine Finset.sum_congr rfl fun j _ => Finset.sum_congr rfl fun b hb => ?_
    rw [Finset.mem_range] at hb
    unfold poolBack
    rw [Nat.mul_comm i p, Nat.mul_comm j q, Nat.mul_add_div (by omega), Nat.mul_add_div (by omega),
      Nat.mul_add_mod, Nat.mul_add_mod, Nat.div_eq_of_lt ha, Nat.div_eq_of_lt hb,
      Nat.mod_eq_of_lt ha, Nat.mod_eq_of_lt hb, Nat.add_zero, Nat.add_zero, mul_assoc]
  rw [Finset.sum_congr rfl fun a ha => e1 a (Finset.mem_range.mp ha), Finset.sum_comm]
  refine Finset.sum_congr rfl fun j _ => ?_
  rw [Finset.mul_sum]
  exact Finset.sum_congr rfl fun a _ => Finset.mul_sum _ _ _

variable {w : Width}

theorem MapsAre.hasFlat {α : Type} {os : List (Mat α)} {n r c : Nat} {F : Nat → Nat → Nat → α}
    (h : MapsAre os n r c F) : (IOType.matrix os).HasFlat (.maps n r c) (flatOf r c F) := by
  refine ⟨h.1, fun ch m hm => ⟨(h.2 ch m hm).1, ?_⟩⟩
  rw [(h.2 ch m hm).2]
  exact table_congr fun i hi j hj => (flatOf_idx F ch hi hj).symm

/-- The derivative of weighted pooling. -/
theorem reduce_core {l : Reduce (Cf w ℝ)} {p q : Nat} (hs : l.blockSize = (p, q))
    {W : Nat → Nat → Cf w ℝ} (hW : l.Weighted W)
    {ms : List (Mat (Cf w ℝ))} {y : IOType (Cf w ℝ)} {n R C : Nat} {a : Nat → Cf w ℝ} (hn : 0 < n)
    (hx : (IOType.matrix ms).HasFlat (.maps n R C) a)
    (hf : l.forward (.matrix ms) = some (.ok y)) :
    ∃ r c a', 0 < r ∧ 0 < c ∧ R = r * p ∧ C = c * q ∧ y.HasFlat (.maps n r c) a'
      ∧ ∀ (g : Nat → Cf w ℝ) (cu : Nat → ℝ → ℂ) (v : Nat → ℂ), Curves (n * (R * C)) a cu v →
        ∃ c' v', Curves (n * (r * c)) a' c' v'
          ∧ (∀ (s : ℝ) (X : IOType (Cf w ℝ)),
            X.HasFlat (.maps n R C) (fun k => Cf.ofC (cu k s)) →
            ∃ Y, l.forward X = some (.ok Y)
              ∧ Y.HasFlat (.maps n r c) fun k => Cf.ofC (c' k s))
          ∧ ((∀ k, k < n * (R * C) → v k = 0) → ∀ k, k < n * (r * c) → v' k = 0)
          ∧ ∑ k ∈ Finset.range (n * (r * c)), (g k).toC * v' k
            = ∑ k ∈ Finset.range (n * (R * C)), (flatOf R C (fun o => poolBack p q W fun i j =>
              g (o * (r * c) + (i * c + j))) k).toC * v k := by
  obtain ⟨hp, hq, hb⟩ := hW
  rw [hs] at hp hq hb
  simp only at hp hq hb
  have hX : MapsAre ms n R C fun ch i j => a (ch * (R * C) + (i * C + j)) := hx
  have hdim : ∃ r c, 0 < r ∧ 0 < c ∧ R = r * p ∧ C = c * q := by
    obtain ⟨m, hm⟩ : ∃ m, ms[0]? = some m := ⟨ms[0]'(by rw [hX.1]; exact hn), by simp⟩
    have hsh := (hX.2 0 m hm).1
    by_contra hcon
    rw [C41_reduce_panic hs hp hq (List.mem_of_getElem? hm) (by
      rw [hsh]
      simp only
      by_contra hh
      push Not at hh
      obtain ⟨⟨r, hr⟩, ⟨c, hc⟩, h3, h4⟩ := hh
      refine hcon ⟨r, c, ?_, ?_, by rw [hr, Nat.mul_comm], by rw [hc, Nat.mul_comm]⟩
      · refine Nat.pos_of_ne_zero fun h => ?_
        rw [h, Nat.mul_zero] at hr; omega
      · refine Nat.pos_of_ne_zero fun h => ?_
        rw [h, Nat.mul_zero] at hc; omega)] at hf
    cases hf
  obtain ⟨r, c, hr, hc, rfl, rfl⟩ := hdim
  have fwd : ∀ (ms : List (Mat (Cf w ℝ))) (X : Nat → Nat → Nat → Cf w ℝ),
      MapsAre ms n (r * p) (c * q) X → ∃ outs, l.forward (.matrix ms) = some (.ok (.matrix outs))
        ∧ MapsAre outs n r c fun ch i j => ∑ a ∈ Finset.range p, ∑ b ∈ Finset.range q,
          W a b * X ch (i * p + a) (j * q + b) := by
    intro ms X hX
    exact C41_reduce hs hp hq hr hc hX fun ch _ i _ j _ =>
      hb fun a b => X ch (i * p + a) (j * q + b)
  obtain ⟨outs, ho1, ho2⟩ := fwd ms _ hX
  rw [hf] at ho1
  simp only [Option.some.injEq, Except.ok.injEq] at ho1
  subst ho1
  refine ⟨r, c, _, hr, hc, rfl, rfl, ho2.hasFlat, fun g cu v hcu => ?_⟩
  set idx : Nat → Nat → Nat → Nat := fun o i j => o * (r * p * (c * q)) + (i * (c * q) + j) with hidx
  have hin : ∀ o, o < n → ∀ i, i < r → ∀ j, j < c → ∀ a, a < p → ∀ b, b < q →
      idx o (i * p + a) (j * q + b) < n * (r * p * (c * q)) := by
    intro o ho i hi j hj a ha b hb
    exact idx_lt ho (idx_lt (idx_lt hi ha) (idx_lt hj hb))
  refine ⟨flatOf r c fun o i j s => ∑ a ∈ Finset.range p, ∑ b ∈ Finset.range q,
      (W a b).toC * cu (idx o (i * p + a) (j * q + b)) s,
    flatOf r c fun o i j => ∑ a ∈ Finset.range p, ∑ b ∈ Finset.range q,
      (W a b).toC * v (idx o (i * p + a) (j * q + b)), ?_, ?_, ?_, ?_⟩
  · refine flat_ind fun o ho i hi j hj => ?_
    rw [flatOf_idx _ _ hi hj, flatOf_idx _ _ hi hj, flatOf_idx _ _ hi hj]
    constructor
    · refine HasDerivAt.fun_sum fun a ha => HasDerivAt.fun_sum fun b hb => ?_
      exact ((hcu _ (hin o ho i hi j hj a (Finset.mem_range.mp ha) b
        (Finset.mem_range.mp hb))).1).const_mul _
    · simp only [Cf.toC_sum, Cf.toC_hom_mul]
      refine Finset.sum_congr rfl fun a ha => Finset.sum_congr rfl fun b hb => ?_
      rw [(hcu _ (hin o ho i hi j hj a (Finset.mem_range.mp ha) b (Finset.mem_range.mp hb))).2]
  · intro s X hX'
    cases X with
    | scalar x => exact absurd hX' id
    | matrix ms' =>
      obtain ⟨outs', k1, k2⟩ := fwd ms' _ hX'
      refine ⟨.matrix outs', k1, k2.1, fun ch m hm => ⟨(k2.2 ch m hm).1, ?_⟩⟩
      rw [(k2.2 ch m hm).2]
      refine table_congr fun i hi j hj => ?_
      beta_reduce
      rw [flatOf_idx _ _ hi hj]
      apply Cf.toC_inj.mp
      simp only [Cf.toC_sum, Cf.toC_hom_mul, Cf.toC_ofC]
      rfl
  · intro hv
    refine flat_ind fun o ho i hi j hj => ?_
    rw [flatOf_idx _ _ hi hj]
    refine Finset.sum_eq_zero fun a ha => Finset.sum_eq_zero fun b hb => ?_
    rw [hv _ (hin o ho i hi j hj a (Finset.mem_range.mp ha) b (Finset.mem_range.mp hb)), mul_zero]
  · rw [sum_cube n r c, sum_cube n (r * p) (c * q)]
    have e1 := pool_adjoint n r c p q (fun a b => (W a b).toC)
      (fun o i j => (g (o * (r * c) + (i * c + j))).toC) (fun o i j => v (idx o i j))
    refine Eq.trans ?_ (e1.trans ?_)
    · refine Finset.sum_congr rfl fun o _ => Finset.sum_congr rfl fun i hi =>
        Finset.sum_congr rfl fun j hj => ?_
      rw [flatOf_idx _ _ (Finset.mem_range.mp hi) (Finset.mem_range.mp hj)]
    · refine Finset.sum_congr rfl fun o _ => Finset.sum_congr rfl fun i hi =>
        Finset.sum_congr rfl fun j hj => ?_
      rw [flatOf_idx _ _ (Finset.mem_range.mp hi) (Finset.mem_range.mp hj)]
      unfold poolBack
      rw [Cf.toC_hom_mul]

theorem Layer.fits_reduce (l : Reduce (Cf w ℝ)) (δ : LayerVec (Cf w ℝ)) :
    δ.Fits (.reduce l) ↔ δ = ([], []) := by
  rw [LayerVec.Fits, if_pos (show (Layer.reduce l).propagates = true from rfl)]
  simp only [Layer.paramsLen, Reduce.paramsLen, List.length_eq_zero_iff, Prod.ext_iff]

theorem flatOf_cube {β : Type} (n r c : Nat) (F : Nat → Nat → Nat → β) :
    (List.range (n * (r * c))).map (flatOf r c F) = cube n r c F := by
  rw [range_map_cube]
  exact cube_congr fun o _ i hi j hj => flatOf_idx F o hi hj

theorem cube_inj {β : Type} {n r c : Nat} {F G : Nat → Nat → Nat → β}
    (h : cube n r c F = cube n r c G) : ∀ o, o < n → ∀ i, i < r → ∀ j, j < c → F o i j = G o i j := by
  intro o ho i hi j hj
  rw [← flatOf_cube, ← flatOf_cube] at h
  have := List.map_inj_left.mp h (o * (r * c) + (i * c + j)) (List.mem_range.mpr (idx_lt ho (idx_lt hi hj)))
  rwa [flatOf_idx _ _ hi hj, flatOf_idx _ _ hi hj] at this

/-- What the layer returns, and what the derivative is. -/
theorem reduce_law {l : Reduce (Cf w ℝ)} {p q : Nat} (hs : l.blockSize = (p, q))
    {W k : Nat → Nat → Cf w ℝ} (hW : l.Weighted W) (hk : l.interpKernel.Is 3 3 k)
    (hodd : q % 2 = 1 → (p - 1) / 2 < q) {x y : IOType (Cf w ℝ)} {σ : Size} (hx : x.HasSize σ)
    (hx0 : x.flat ≠ []) (hf : l.forward x = some (.ok y)) :
    ∃ n r c, 0 < n ∧ 0 < r ∧ 0 < c ∧ σ = .maps n (r * p) (c * q) ∧ y.flat.length = n * (r * c)
      ∧ ∀ G : Nat → Nat → Nat → Cf w ℝ,
        l.computeDerivatives x (cube n r c G) ((cube n r c G).map CplxOps.conj)
          = some (.ok ([], [], cube n (r * p) (c * q) fun o => upMap r c p q k (G o),
            cube n (r * p) (c * q) fun o => upMap r c p q k fun i j => CplxOps.conj (G o i j)))
        ∧ IsLayerGradient (.reduce l) x (cube n r c G) ([], [])
          (cube n (r * p) (c * q) fun o => poolBack p q W (G o)) := by
  have : Nonempty (Cf w ℝ) := ⟨0⟩
  obtain ⟨a, ha⟩ := hx.exists_flat
  cases x with
  | scalar v => simp [Reduce.forward] at hf
  | matrix ms => cases σ with
    | vec n => exact absurd ha id
    | maps n R C =>
      have hn : 0 < n := by
        refine Nat.pos_of_ne_zero fun h => hx0 ?_
        rw [ha.flat]
        simp [Size.len, h]
      obtain ⟨r, c, a', hr, hc, rfl, rfl, hy, hcore⟩ := reduce_core hs hW hn ha hf
      refine ⟨n, r, c, hn, hr, hc, rfl, by rw [hy.flat]; simp [Size.len], fun G => ⟨?_, ?_⟩⟩
      · rw [cube_map]
        have hp := hW.1
        have hq := hW.2.1
        rw [hs] at hp hq
        exact Reduce.computeDerivatives_is hs hk hp hq hodd hn hr hc G _ ms hx.1
          fun m hm => (hx.2 m hm).2
      · have h := layer_gradient (l := .reduce l) (γ := ([], [])) (g := flatOf r c G)
          (g' := flatOf (r * p) (c * q) fun o => poolBack p q W (G o)) ha hf hy
          ((Layer.fits_reduce l _).mpr rfl) (fun δ hδ cu v hcu => by
            rw [Layer.fits_reduce] at hδ
            subst hδ
            obtain ⟨c', v', h1, h2, -, h4⟩ := hcore (flatOf r c G) cu v hcu
            refine ⟨c', v', h1, Eventually.of_forall fun s X hX => ?_, ?_⟩
            · exact h2 s X hX
            · simp only [Size.len]
              rw [h4]
              have e : ∀ k, k < n * (r * p * (c * q)) →
                  flatOf (r * p) (c * q) (fun o => poolBack p q W fun i j =>
                    flatOf r c G (o * (r * c) + (i * c + j))) k
                  = flatOf (r * p) (c * q) (fun o => poolBack p q W (G o)) k := by
                refine flat_ind fun o ho i hi j hj => ?_
                rw [flatOf_idx _ _ hi hj, flatOf_idx _ _ hi hj]
                unfold poolBack
                beta_reduce
                rw [flatOf_idx _ _ (Nat.div_lt_of_lt_mul (Nat.mul_comm r p ▸ hi))
                  (Nat.div_lt_of_lt_mul (Nat.mul_comm c q ▸ hj))]
              rw [Finset.sum_congr rfl fun k hk => by rw [e k (Finset.mem_range.mp hk)]]
              simp [pairing])
        simp only [Size.len] at h
        rw [flatOf_cube, flatOf_cube] at h
        exact h

theorem exists_cube {β : Type} [Nonempty β] (n r c : Nat) (g : List β)
    (hg : g.length = n * (r * c)) : ∃ G, g = cube n r c G := by
  obtain ⟨f, hf⟩ := exists_range_map g
  rw [hg, range_map_cube] at hf
  exact ⟨_, hf⟩

/-- C67, the part that holds. For every pooling layer whose block function is a weighted sum and
whose interpolation kernel holds these weights turned by 180° (about the place where the code puts
the derivative in its block) and zeros elsewhere, and every non-empty input it forwards: for every
vector `g` of derivatives with respect to the outputs, the layer returns the derivatives with
respect to its input and, when the weights are real, their conjugates. (Missing: other kernels, for
which this is false, see `C67_exact` and `C67_refuted`.) -/
theorem C67_partial (l : Reduce (Cf w ℝ)) (W k : Nat → Nat → Cf w ℝ) (hW : l.Weighted W)
    (hk : l.interpKernel.Is 3 3 k)
    (hodd : l.blockSize.2 % 2 = 1 → (l.blockSize.1 - 1) / 2 < l.blockSize.2)
    (hT : Transposed l.blockSize.1 l.blockSize.2 (upOff l.blockSize.1)
      (leftOff l.blockSize.1 l.blockSize.2) W k)
    (x y : IOType (Cf w ℝ)) (σ : Size) (hx : x.HasSize σ) (hx0 : x.flat ≠ [])
    (hf : l.forward x = some (.ok y)) (g : List (Cf w ℝ)) (hg : g.length = y.flat.length) :
    ∃ dx dxc, l.computeDerivatives x g (g.map CplxOps.conj) = some (.ok ([], [], dx, dxc))
      ∧ IsLayerGradient (.reduce l) x g ([], []) dx
      ∧ ((∀ a b, CplxOps.conj (W a b) = W a b) → dxc = dx.map CplxOps.conj) := by
  have : Nonempty (Cf w ℝ) := ⟨0⟩
  obtain ⟨n, r, c, hn, hr, hc, -, hy, h⟩ := reduce_law
    (show l.blockSize = (l.blockSize.1, l.blockSize.2) from rfl) hW hk hodd hx hx0 hf
  obtain ⟨G, rfl⟩ := exists_cube n r c g (hg.trans hy)
  obtain ⟨h1, h2⟩ := h G
  have hu : ∀ G : Nat → Nat → Nat → Cf w ℝ,
      (cube n (r * l.blockSize.1) (c * l.blockSize.2) fun o =>
        upMap r c l.blockSize.1 l.blockSize.2 k (G o))
      = cube n (r * l.blockSize.1) (c * l.blockSize.2) fun o =>
        poolBack l.blockSize.1 l.blockSize.2 W (G o) := fun G => cube_congr fun o _ i hi j hj =>
    upMap_transposed hW.1 hW.2.1 (leftOff_lt hW.2.1 hodd) hT (G o) hi hj
  refine ⟨_, _, h1, ?_, fun hr => ?_⟩
  · rw [hu]; exact h2
  · rw [hu (fun o i j => CplxOps.conj (G o i j)), hu, cube_map]
    refine cube_congr fun o _ i _ j _ => ?_
    unfold poolBack
    apply Cf.toC_inj.mp
    have hW' := congrArg Cf.toC (hr (i % l.blockSize.1) (j % l.blockSize.2))
    have hW' : (Cf.conj (W (i % l.blockSize.1) (j % l.blockSize.2))).toC = _ := hW'
    rw [Cf.toC_conj] at hW'
    rw [Cf.toC_hom_mul]
    show (Cf.conj _).toC * _ = (Cf.conj _).toC
    rw [Cf.toC_conj, Cf.toC_conj, Cf.toC_hom_mul, map_mul, hW']

/-- C67, exactly which kernels are right: with at least two blocks in both directions, the layer
returns the derivatives with respect to its input for every `g` if and only if the kernel holds the
weights turned by 180° and zeros elsewhere, and all weights it cannot reach are zero. -/
theorem C67_exact (l : Reduce (Cf w ℝ)) (W k : Nat → Nat → Cf w ℝ) (hW : l.Weighted W)
    (hk : l.interpKernel.Is 3 3 k)
    (hodd : l.blockSize.2 % 2 = 1 → (l.blockSize.1 - 1) / 2 < l.blockSize.2)
    (x y : IOType (Cf w ℝ)) (n r c : Nat) (hn : 0 < n) (hr : 2 ≤ r) (hc : 2 ≤ c)
    (hx : x.HasSize (.maps n (r * l.blockSize.1) (c * l.blockSize.2)))
    (hf : l.forward x = some (.ok y)) :
    (∀ g : List (Cf w ℝ), g.length = y.flat.length → ∃ dx dxc,
        l.computeDerivatives x g (g.map CplxOps.conj) = some (.ok ([], [], dx, dxc))
        ∧ IsLayerGradient (.reduce l) x g ([], []) dx)
      ↔ Transposed l.blockSize.1 l.blockSize.2 (upOff l.blockSize.1)
        (leftOff l.blockSize.1 l.blockSize.2) W k := by
  have : Nonempty (Cf w ℝ) := ⟨0⟩
  have hp := hW.1
  have hq := hW.2.1
  have hpos : 0 < n * (r * l.blockSize.1 * (c * l.blockSize.2)) :=
    Nat.mul_pos hn (Nat.mul_pos (Nat.mul_pos (by omega) hp) (Nat.mul_pos (by omega) hq))
  have hx0 : x.flat ≠ [] := by
    obtain ⟨a, ha⟩ := hx.exists_flat
    rw [ha.flat]
    intro h
    have := congrArg List.length h
    simp only [List.length_map, List.length_range, Size.len, List.length_nil] at this
    omega
  constructor
  · intro h
    obtain ⟨n', r', c', hn', hr', hc', hσ, hy, hl⟩ := reduce_law
      (show l.blockSize = (l.blockSize.1, l.blockSize.2) from rfl) hW hk hodd hx hx0 hf
    simp only [Size.maps.injEq] at hσ
    obtain ⟨rfl, hrr, hcc⟩ := hσ
    obtain rfl := Nat.eq_of_mul_eq_mul_right hp hrr
    obtain rfl := Nat.eq_of_mul_eq_mul_right hq hcc
    refine transposed_of_upMap hp hq (leftOff_lt hq hodd) hr hc fun I J i hi j hj => ?_
    obtain ⟨h1, h2⟩ := hl fun _ x y => if x = I ∧ y = J then 1 else 0
    obtain ⟨dx, dxc, h3, h4⟩ := h (cube n r c fun _ x y => if x = I ∧ y = J then 1 else 0)
      (by rw [hy, cube_length])
    rw [h1] at h3
    simp only [Option.some.injEq, Except.ok.injEq, Prod.mk.injEq, true_and] at h3
    rw [← h3.1] at h4
    exact cube_inj (h4.unique (l := .reduce l) hf h2) 0 hn i hi j hj
  · intro hT g hg
    obtain ⟨dx, dxc, h1, h2, -⟩ := C67_partial l W k hW hk hodd hT x y _ hx hx0 hf g hg
    exact ⟨dx, dxc, h1, h2⟩

/-- C67 fails for every kernel once the blocks are larger than `3 × 3`: a square block function with
a non-zero weight in the last corner of a `p × p` block, `p ≥ 4`, has no kernel with which the
returned derivatives are right. -/
theorem C67_refuted_large (l : Reduce (Cf w ℝ)) (W k : Nat → Nat → Cf w ℝ) (hW : l.Weighted W)
    (hk : l.interpKernel.Is 3 3 k) (p : Nat) (hs : l.blockSize = (p, p)) (hp : 4 ≤ p)
    (hc0 : W (p - 1) (p - 1) ≠ 0)
    (x y : IOType (Cf w ℝ)) (n r c : Nat) (hn : 0 < n) (hr : 2 ≤ r) (hc : 2 ≤ c)
    (hx : x.HasSize (.maps n (r * p) (c * p))) (hf : l.forward x = some (.ok y)) :
    ∃ g : List (Cf w ℝ), g.length = y.flat.length ∧ ¬ ∃ dx dxc,
      l.computeDerivatives x g (g.map CplxOps.conj) = some (.ok ([], [], dx, dxc))
      ∧ IsLayerGradient (.reduce l) x g ([], []) dx := by
  by_contra hcon
  push Not at hcon
  have h := (C67_exact l W k hW hk (by rw [hs]; simp only; omega) x y n r c hn hr hc
    (by rw [hs]; exact hx) hf).mp hcon
  rw [hs] at h
  refine hc0 (h.2 _ (by simp only; omega) _ (by simp only; omega) ?_)
  simp only [upOff]
  split <;> omega

/-- The kernel of this pooling layer is the right one for real weights, and the input has at least
one map. -/
def Layer.PoolRight (l : Layer (Cf w ℝ)) (prev : IOType (Cf w ℝ)) : Prop :=
  match l with
  | .reduce l => prev.flat ≠ [] ∧ ∃ W k, l.Weighted W ∧ (∀ a b, CplxOps.conj (W a b) = W a b)
      ∧ l.interpKernel.Is 3 3 k
      ∧ (l.blockSize.2 % 2 = 1 → (l.blockSize.1 - 1) / 2 < l.blockSize.2)
      ∧ Transposed l.blockSize.1 l.blockSize.2 (upOff l.blockSize.1)
        (leftOff l.blockSize.1 l.blockSize.2) W k
  | _ => True

/-- The backward step of a pooling layer with the right kernel. -/
theorem reduce_right {l : Reduce (Cf w ℝ)} {prev y : IOType (Cf w ℝ)} {σ : Size}
    {a : Nat → Cf w ℝ} (hr : (Layer.reduce l).PoolRight prev) (hx : prev.HasFlat σ a)
    (hf : l.forward prev = some (.ok y)) :
    ∃ n r c a', y.HasFlat (.maps n r c) a' ∧ (∃ n r c, σ = .maps n r c)
      ∧ ∀ m, m ≠ .start → LayerRight m m (.reduce l) prev σ (.maps n r c) a a' := by
  obtain ⟨hx0, W, k, hW, hreal, hk, hodd, hT⟩ := hr
  cases prev with
  | scalar v => simp [Reduce.forward] at hf
  | matrix ms => cases σ with
    | vec n => exact absurd hx id
    | maps n R C =>
      have hn : 0 < n := by
        refine Nat.pos_of_ne_zero fun h => hx0 ?_
        rw [hx.flat]
        simp [Size.len, h]
      have hs : l.blockSize = (l.blockSize.1, l.blockSize.2) := rfl
      generalize l.blockSize.1 = p at *
      generalize l.blockSize.2 = q at *
      obtain ⟨r, c, a', hr, hc, rfl, rfl, hy, hcore⟩ := reduce_core hs hW hn hx hf
      refine ⟨n, r, c, a', hy, ⟨n, _, _, rfl⟩, fun m hm g gc hg => ?_⟩
      have hp : 0 < p := by have := hW.1; rwa [hs] at this
      have hq : 0 < q := by have := hW.2.1; rwa [hs] at this
      have hX : MapsAre ms n (r * p) (c * q) _ := hx
      have hback : (Layer.reduce l).back (.matrix ms) ((List.range (n * (r * c))).map g)
          ((List.range (n * (r * c))).map gc)
          = some (([], []), (List.range (n * (r * p * (c * q)))).map (flatOf (r * p) (c * q) fun o =>
              poolBack p q W fun i j => g (o * (r * c) + (i * c + j))),
            (List.range (n * (r * p * (c * q)))).map (flatOf (r * p) (c * q) fun o =>
              poolBack p q W fun i j => gc (o * (r * c) + (i * c + j)))) := by
        rw [flatOf_cube, flatOf_cube, Layer.back,
          if_pos (show (Layer.reduce l).propagates = true from rfl), range_map_cube, range_map_cube]
        simp only [Layer.computeDerivatives]
        rw [Reduce.computeDerivatives_is hs hk hp hq hodd hn hr hc _ _ ms hX.1 (fun m hm => by
          obtain ⟨ch, hch, rfl⟩ := List.getElem_of_mem hm
          exact (hX.2 ch _ (List.getElem?_eq_getElem hch)).1)]
        simp only [Option.bind_eq_bind, Option.bind_some, unwrap, Option.map_some,
          Option.some.injEq, Prod.mk.injEq, true_and]
        exact ⟨cube_congr fun o _ i hi j hj =>
            upMap_transposed hp hq (leftOff_lt hq hodd) hT _ hi hj,
          cube_congr fun o _ i hi j hj =>
            upMap_transposed hp hq (leftOff_lt hq hodd) hT _ hi hj⟩
      refine ⟨([], []), _, _, hback, ?_, (Layer.fits_reduce l _).mpr rfl, ?_⟩
      · cases m with
        | start => exact absurd rfl hm
        | any => trivial
        | full =>
          refine flat_ind fun o ho i hi j hj => ?_
          rw [flatOf_idx _ _ hi hj, flatOf_idx _ _ hi hj]
          unfold poolBack
          beta_reduce
          have hg' : gc _ = CplxOps.conj (g _) := hg (o * (r * c) + (i / p * c + j / q))
            (idx_lt ho (idx_lt (Nat.div_lt_of_lt_mul (Nat.mul_comm r p ▸ hi))
              (Nat.div_lt_of_lt_mul (Nat.mul_comm c q ▸ hj))))
          rw [hg']
          apply Cf.toC_inj.mp
          have hW' : (Cf.conj (W (i % p) (j % q))).toC = _ :=
            congrArg Cf.toC (hreal (i % p) (j % q))
          rw [Cf.toC_conj] at hW'
          rw [Cf.toC_hom_mul]
          show (Cf.conj _).toC * _ = (Cf.conj _).toC
          rw [Cf.toC_conj, Cf.toC_conj, Cf.toC_hom_mul, map_mul, hW']
      · intro δ hδ cu v hcu hv
        rw [Layer.fits_reduce] at hδ
        subst hδ
        obtain ⟨c', v', h1, h2, h3, h4⟩ := hcore g cu v hcu
        refine ⟨c', v', h1, fun h => absurd h hm, Eventually.of_forall fun s X hX => h2 s X hX, ?_⟩
        simp only [Size.len]
        rw [h4]
        simp [pairing]

/-! ### The pooling layer of the classification example -/

open Examples

theorem avgBlock_eq (b : List (Cf .w32 ℝ)) (hb : b ≠ []) :
    avgBlock b = some (b.sum * Cf.ofC (1 / (b.length : ℂ))) := by
  have hfold : ∀ (l : List (Cf .w32 ℝ)) (a : Cf .w32 ℝ), l.foldl Cf.add a = a + l.sum := by
    intro l
    induction l with
    | nil => simp
    | cons x l ih =>
      intro a
      rw [List.foldl_cons, ih, List.sum_cons, ← add_assoc]
      rfl
  have hd : (Cf.default : Cf .w32 ℝ) = 0 := by
    apply Cf.toC_inj.mp; rw [Cf.toC_default, Cf.toC_hom_zero]
  have hl : (Cf.new (Scalar.ofNat b.length) Scalar.zero : Cf .w32 ℝ).toC = (b.length : ℂ) := by
    apply Complex.ext <;> simp [Cf.new, Cf.toC, Scalar.zero, Scalar.ofNat, Scalar.lit]
  have hne : (b.length : ℂ) ≠ 0 := by
    simpa using hb
  unfold avgBlock
  rw [hfold, hd, zero_add]
  obtain ⟨z, h1, h2⟩ := div_toC b.sum (Cf.new (Scalar.ofNat b.length) Scalar.zero) (by rwa [hl])
  rw [h1]
  congr 1
  apply Cf.toC_inj.mp
  rw [h2, hl, Cf.toC_hom_mul, Cf.toC_ofC, mul_one_div]

/-- Average pooling is weighted pooling. -/
theorem avgPool_weighted (n : Nat) : (avgPool n : Reduce (Cf .w32 ℝ)).Weighted fun _ _ => ⟨1 / 4, 0⟩ := by
  refine ⟨by simp [avgPool, Reduce.init], by simp [avgPool, Reduce.init], fun x => ?_⟩
  have e : (⟨1 / 4, 0⟩ : Cf .w32 ℝ) = Cf.ofC (1 / (4 : ℂ)) := by
    have h : ((1 / 4 : ℝ) : ℂ) = 1 / (4 : ℂ) := by push_cast; rfl
    rw [← h]
    simp [Cf.ofC]
  simp only [avgPool, Reduce.init]
  rw [avgBlock_eq _ (by simp [List.range_succ])]
  simp only [e]
  congr 1
  simp [List.range_succ, Finset.sum_range_succ]
  ring

/-- C69, exact arithmetic. The pooling layer of the classification example: `2 × 2` blocks, replaced by
their mean; its interpolation kernel is the bilinear one, `hᵢ·hⱼ` with `h = (1/2, 1, 1/2)`. -/
theorem C69_pooling (n : Nat) :
    (avgPool n : Reduce (Cf .w32 ℝ)).inputFeaturesLen = n
      ∧ (avgPool n : Reduce (Cf .w32 ℝ)).blockSize = (2, 2)
      ∧ (avgPool n : Reduce (Cf .w32 ℝ)).Weighted (fun _ _ => ⟨1 / 4, 0⟩)
      ∧ (avgPool n : Reduce (Cf .w32 ℝ)).interpKernel.Is 3 3 fun i j =>
        ⟨(if i = 1 then 1 else 1 / 2) * (if j = 1 then 1 else 1 / 2), 0⟩ := by
  refine ⟨rfl, rfl, avgPool_weighted n, rfl, ?_⟩
  simp only [avgPool, Reduce.init, bilinear, Mat.fromBody, table, Cf.new, Scalar.lit]
  norm_num [List.range_succ]

/-- C67 is false of the code: the pooling layer of the classification example (average over `2 × 2`
blocks with its 3 × 3 interpolation kernel) returns wrong derivatives, for every non-empty input it
forwards and every `g` whose first entry is not zero. (The first entry it returns is four times the
right one.) -/
theorem C67_refuted (m : Nat) (x y : IOType (Cf .w32 ℝ)) (σ : Size) (hx : x.HasSize σ)
    (hx0 : x.flat ≠ []) (hf : (avgPool m : Reduce (Cf .w32 ℝ)).forward x = some (.ok y))
    (g0 : Cf .w32 ℝ) (g : List (Cf .w32 ℝ)) (hg : (g0 :: g).length = y.flat.length) (h0 : g0 ≠ 0) :
    ∃ dx dxc, (avgPool m : Reduce (Cf .w32 ℝ)).computeDerivatives x (g0 :: g)
        ((g0 :: g).map CplxOps.conj) = some (.ok ([], [], dx, dxc))
      ∧ dx.head? = some g0 ∧ ¬ IsLayerGradient (.reduce (avgPool m)) x (g0 :: g) ([], []) dx := by
  have : Nonempty (Cf .w32 ℝ) := ⟨0⟩
  obtain ⟨k, hk, hk1⟩ : ∃ k, (avgPool m : Reduce (Cf .w32 ℝ)).interpKernel.Is 3 3 k ∧ k 1 1 = 1 := by
    refine ⟨fun i j => ((bilinear : Mat (Cf .w32 ℝ)).body.getD (i * 3 + j) 0), ⟨rfl, ?_⟩, ?_⟩
    · simp [avgPool, Reduce.init, bilinear, Mat.fromBody, table, List.range_succ]
    · apply Cf.toC_inj.mp
      rw [Cf.toC_hom_one]
      apply Complex.ext <;> simp [bilinear, Mat.fromBody, Cf.new, Cf.toC, Scalar.lit]
  obtain ⟨n, r, c, hn, hr, hc, -, hy, h⟩ := reduce_law (l := avgPool m) (p := 2) (q := 2) rfl
    (avgPool_weighted m) hk (by decide) hx hx0 hf
  obtain ⟨G, hG⟩ := exists_cube n r c (g0 :: g) (hg.trans hy)
  have hG0 : G 0 0 0 = g0 := by
    have := congrArg List.head? hG
    obtain ⟨n, rfl⟩ := Nat.exists_eq_succ_of_ne_zero (by omega : n ≠ 0)
    obtain ⟨r, rfl⟩ := Nat.exists_eq_succ_of_ne_zero (by omega : r ≠ 0)
    obtain ⟨c, rfl⟩ := Nat.exists_eq_succ_of_ne_zero (by omega : c ≠ 0)
    simpa [cube, table, List.range_succ_eq_map] using this.symm
  obtain ⟨h1, h2⟩ := h G
  rw [← hG] at h1 h2
  have hup : upMap r c 2 2 k (G 0) 0 0 = g0 := by
    rw [upMap_sum]
    simp only [Finset.sum_range_succ, Finset.sum_range_zero, upOff, leftOff]
    have e1 : 2 < 1 + r * 2 := by omega
    have e2 : 2 < 1 + c * 2 := by omega
    have e3 : 1 < 1 + r * 2 := by omega
    have e4 : 1 < 1 + c * 2 := by omega
    simp [e1, e2, e3, e4, hk1, hG0]
  refine ⟨_, _, h1, ?_, fun h3 => ?_⟩
  · obtain ⟨n, rfl⟩ := Nat.exists_eq_succ_of_ne_zero (by omega : n ≠ 0)
    obtain ⟨r, rfl⟩ := Nat.exists_eq_succ_of_ne_zero (by omega : r ≠ 0)
    obtain ⟨c, rfl⟩ := Nat.exists_eq_succ_of_ne_zero (by omega : c ≠ 0)
    rw [← hup]
    simp [cube, table, List.range_succ_eq_map, Nat.succ_mul]
  · have h4 := cube_inj (h3.unique (l := .reduce (avgPool m)) hf h2) 0 hn 0 (by omega) 0 (by omega)
    rw [hup] at h4
    unfold poolBack at h4
    simp only [Nat.zero_div] at h4
    rw [hG0] at h4
    have h5 := congrArg Cf.toC h4
    rw [Cf.toC_hom_mul] at h5
    have h6 : (⟨1 / 4, 0⟩ : Cf .w32 ℝ).toC = 1 / 4 := by
      apply Complex.ext <;> simp [Cf.toC]
    rw [h6] at h5
    apply h0
    apply Cf.toC_inj.mp
    rw [Cf.toC_hom_zero]
    linear_combination (4 / 3 : ℂ) * h5

/-- The average over `2 × 2` blocks with the kernel that is right for it. -/
noncomputable def avgPoolRight (n : Nat) : Reduce (Cf .w32 ℝ) :=
  Reduce.init n (2, 2) avgBlock (Mat.fromBody (table 3 3 fun a b =>
    if a < 2 ∧ b < 2 then ⟨1 / 4, 0⟩ else 0) (3, 3))

theorem avgPoolRight_transposed : Transposed 2 2 (upOff 2) (leftOff 2 2)
    (fun _ _ => (⟨1 / 4, 0⟩ : Cf .w32 ℝ)) (fun a b => if a < 2 ∧ b < 2 then ⟨1 / 4, 0⟩ else 0) := by
  constructor
  · intro a ha b hb
    rw [show upOff 2 = 0 from rfl, show leftOff 2 2 = 0 from rfl]
    beta_reduce
    by_cases h : a < 2 ∧ b < 2
    · rw [if_pos h, if_pos (by omega)]
    · rw [if_neg h, if_neg (by omega)]
  · intro a ha b hb h
    rw [show upOff 2 = 0 from rfl, show leftOff 2 2 = 0 from rfl] at h
    omega

/-- Non-vacuity of `C67_partial`: with that kernel the derivatives are right on every non-empty
input. -/
example (x y : IOType (Cf .w32 ℝ)) (σ : Size) (hx : x.HasSize σ) (hx0 : x.flat ≠ [])
    (hf : (avgPoolRight 1).forward x = some (.ok y)) (g : List (Cf .w32 ℝ))
    (hg : g.length = y.flat.length) :
    ∃ dx dxc, (avgPoolRight 1).computeDerivatives x g (g.map CplxOps.conj)
        = some (.ok ([], [], dx, dxc))
      ∧ IsLayerGradient (.reduce (avgPoolRight 1)) x g ([], []) dx := by
  obtain ⟨dx, dxc, h1, h2, -⟩ := C67_partial (avgPoolRight 1) _ _ (avgPool_weighted 1)
    (Mat.fromBody_is 3 3 _) (by simp [avgPoolRight, Reduce.init]) avgPoolRight_transposed x y σ hx hx0
    hf g hg
  exact ⟨dx, dxc, h1, h2⟩

/-- Such inputs exist: a 4 × 4 map is forwarded to a 2 × 2 map. -/
example : ∃ y, (avgPool 1 : Reduce (Cf .w32 ℝ)).forward (.matrix [Mat.fromBody (table 4 4 fun _ _ => 1) (4, 4)])
    = some (.ok y) := by
  obtain ⟨outs, h, -⟩ := C41_reduce (l := (avgPool 1 : Reduce (Cf .w32 ℝ))) (n := 1) (nr := 2) (nc := 2)
    (p := 2) (q := 2) rfl (by omega) (by omega) (by omega) (by omega)
    (maps := [Mat.fromBody (table 4 4 fun _ _ => (1 : Cf .w32 ℝ)) (4, 4)]) (X := fun _ _ _ => 1)
    ⟨rfl, fun ch m hm => by
      cases ch with
      | zero => simp only [List.getElem?_cons_zero, Option.some.injEq] at hm; subst hm; exact Mat.fromBody_is _ _ _
      | succ ch => simp at hm⟩
    (fun ch _ i _ j _ => (avgPool_weighted 1).2.2 fun _ _ => 1)
  exact ⟨_, h⟩

end Renplex
