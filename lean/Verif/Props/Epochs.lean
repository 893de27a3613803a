import Verif.Spec.Epochs
import Verif.Lemmas.Epochs
import Verif.Props.Threshold
/-!
# C121: training a single layer without activation with several batches in turn
-/

namespace Renplex
open Filter Topology
variable {w : Width} {pre : List (Layer (Cf w ℝ))} {s : Size} {u m : Nat}
  {l : Dense (Cf w ℝ)} {W : Nat → Nat → Cf w ℝ} {b : Nat → Cf w ℝ} {bs : List (Part w)}

/-- The step of a batch on the parameters. -/
noncomputable def Part.next (pre : List (Layer (Cf w ℝ))) (u m : Nat) (θ : Par u m) (p : Part w) : Par u m :=
  LeastSquares.next (design u m (featX pre p.pts)) (designAdj u m (featX pre p.pts)) (targY u p.pts)
    (p.rate / p.pts.length) θ

/-- The step of a batch on the distance to a solution. -/
noncomputable def Part.map (pre : List (Layer (Cf w ℝ))) (u m : Nat) (p : Part w) : Par u m →ₗ[ℂ] Par u m :=
  LeastSquares.stepMap (design u m (featX pre p.pts)) (designAdj u m (featX pre p.pts)) (p.rate / p.pts.length)

/-- The parameters with zero predictions on the batches. -/
noncomputable def silentOn (pre : List (Layer (Cf w ℝ))) (u m : Nat) : List (Part w) → Submodule ℂ (Par u m)
  | [] => ⊤
  | p :: bs => LinearMap.ker (design u m (featX pre p.pts)) ⊓ silentOn pre u m bs

/-- An epoch on the distance to a solution. -/
noncomputable def epochMap (pre : List (Layer (Cf w ℝ))) (u m : Nat) : List (Part w) → Par u m →ₗ[ℂ] Par u m
  | [] => LinearMap.id
  | p :: bs => epochMap pre u m bs ∘ₗ p.map pre u m

/-- Training with a list of batches as a sequence of steps. -/
theorem FixedFront.train_par (h : FixedFront pre s m) (hl : l.Is u m W b .none)
    (hb : ∀ p ∈ bs, p.pts ≠ [] ∧ ∀ q ∈ p.pts, q.1.HasSize s ∧ q.2.length = u) :
    ∃ (l' : Dense (Cf w ℝ)) (W' : Nat → Nat → Cf w ℝ) (b' : Nat → Cf w ℝ),
      (withHead pre l).train (bs.map Part.call) = some (withHead pre l')
      ∧ l'.Is u m W' b' .none ∧ toPar u m W' b' = bs.foldl (Part.next pre u m) (toPar u m W b) := by
  induction bs generalizing l W b with
  | nil => exact ⟨l, W, b, rfl, hl, rfl⟩
  | cons p bs ih =>
    obtain ⟨l1, W1, b1, h1, h2, h3⟩ := h.step' hl (hb p (by simp)).1 (hb p (by simp)).2 p.loss p.rate
    obtain ⟨l2, W2, b2, k1, k2, k3⟩ := ih h2 fun p' hp' => hb p' (by simp [hp'])
    refine ⟨l2, W2, b2, ?_, k2, ?_⟩
    · rw [Net.train] at k1 ⊢
      rw [List.map_cons, List.foldlM_cons]
      simp only [Part.call, h1, Option.map_some, Option.bind_eq_bind, Option.bind_some]
      exact k1
    · rw [k3, List.foldl_cons]
      congr 1

theorem Part.Fine.setting (h : FixedFront pre s m) (hu : 0 < u) {p : Part w} (hp : p.Fine pre s u m) :
    ∃ K, LeastSquares.Setting (design u m (featX pre p.pts)) (designAdj u m (featX pre p.pts))
      (p.rate / p.pts.length) K := by
  obtain ⟨K, hK, -⟩ := C120_steepness h hu hp.sized
  exact ⟨K, h.steep_setting hp.ne hp.sized hK hp.pos (hp.small K hK)⟩

theorem epoch_shrinks (h : FixedFront pre s m) (hu : 0 < u) (hb : ∀ p ∈ bs, p.Fine pre s u m) :
    LeastSquares.Shrinks (epochMap pre u m bs) (silentOn pre u m bs) := by
  induction bs with
  | nil => exact .id
  | cons p bs ih =>
    obtain ⟨K, hs⟩ := (hb p (by simp)).setting h hu
    exact hs.shrinks.comp (ih fun p' hp' => hb p' (by simp [hp']))

theorem epoch_sub {θ' : Par u m} (hf : ∀ p ∈ bs, design u m (featX pre p.pts) θ' = targY u p.pts) (θ : Par u m) :
    bs.foldl (Part.next pre u m) θ - θ' = epochMap pre u m bs (θ - θ') := by
  induction bs generalizing θ with
  | nil => rfl
  | cons p bs ih =>
    rw [List.foldl_cons, ih fun p' hp' => hf p' (by simp [hp'])]
    show _ = epochMap pre u m bs (p.map pre u m (θ - θ'))
    rw [Part.map, ← LeastSquares.next_sub (hf p (by simp))]
    rfl

theorem mem_silentOn (θ : Par u m) :
    θ ∈ silentOn pre u m bs ↔ ∀ p ∈ bs, design u m (featX pre p.pts) θ = 0 := by
  induction bs with
  | nil => simp [silentOn]
  | cons p bs ih => simp [silentOn, ih]

theorem FixedFront.fits_par (h : FixedFront pre s m) (hl : l.Is u m W b .none)
    (hb : ∀ p ∈ bs, ∀ q ∈ p.pts, q.1.HasSize s ∧ q.2.length = u) :
    l.Fits pre u m bs ↔ ∀ p ∈ bs, design u m (featX pre p.pts) (toPar u m W b) = targY u p.pts := by
  have key : ∀ p ∈ bs, (BatchError (withHead pre l) p.pts 0
      ↔ design u m (featX pre p.pts) (toPar u m W b) = targY u p.pts) := by
    intro p hp
    rw [h.error hl (hb p hp), eq_comm, pow_eq_zero_iff two_ne_zero, norm_eq_zero, sub_eq_zero]
  constructor
  · intro hf p hp
    exact (key p hp).mp (hf.2 p hp)
  · intro hf
    exact ⟨⟨W, b, hl⟩, fun p hp => (key p hp).mpr (hf p hp)⟩

/-- C121. Training in epochs never fails, for any non-empty batches, losses and learning rates. -/
theorem C121_run (h : FixedFront pre s m) (hl : l.Linear u m)
    (hb : ∀ p ∈ bs, p.pts ≠ [] ∧ ∀ q ∈ p.pts, q.1.HasSize s ∧ q.2.length = u) :
    ∃ L, L 0 = l ∧ EpochRun pre u m bs L := by
  have hstep : ∀ l : {l : Dense (Cf w ℝ) // l.Linear u m}, ∃ l' : {l : Dense (Cf w ℝ) // l.Linear u m},
      (withHead pre l.1).train (bs.map Part.call) = some (withHead pre l'.1) := by
    rintro ⟨l, W, b, hl⟩
    obtain ⟨l', W', b', h1, h2, -⟩ := h.train_par hl hb
    exact ⟨⟨l', W', b', h2⟩, h1⟩
  choose F hF using hstep
  refine ⟨fun T => (F^[T] ⟨l, hl⟩).1, rfl, fun T => (F^[T] ⟨l, hl⟩).2, fun T => ?_⟩
  induction T with
  | zero => rfl
  | succ T ih =>
    rw [List.replicate_succ', List.flatten_append, List.map_append, Net.train, List.foldlM_append]
    rw [Net.train] at ih
    rw [ih]
    simp only [List.flatten_singleton, Option.bind_eq_bind, Option.bind_some, Function.iterate_succ_apply']
    exact hF _

/-- The run as a sequence of vectors. -/
theorem FixedFront.epochs (h : FixedFront pre s m)
    (hb : ∀ p ∈ bs, p.pts ≠ [] ∧ ∀ q ∈ p.pts, q.1.HasSize s ∧ q.2.length = u)
    {L : Nat → Dense (Cf w ℝ)} (hrun : EpochRun pre u m bs L) :
    ∃ θ : Nat → Par u m, (∀ k, θ (k + 1) = bs.foldl (Part.next pre u m) (θ k))
      ∧ ∀ T, ∃ W b, (L T).Is u m W b .none ∧ θ T = toPar u m W b := by
  choose W b hL using hrun.linear
  refine ⟨fun T => toPar u m (W T) (b T), ?_, fun T => ⟨W T, b T, hL T, rfl⟩⟩
  intro T
  obtain ⟨l', W', b', h1, h2, h3⟩ := h.train_par (hL T) hb
  have h4 := hrun.train (T + 1)
  rw [List.replicate_succ', List.flatten_append, List.map_append, Net.train, List.foldlM_append] at h4
  have h5 := hrun.train T
  rw [Net.train] at h5 h1
  rw [h5] at h4
  simp only [List.flatten_singleton, Option.bind_eq_bind, Option.bind_some, h1] at h4
  have h6 : l' = L (T + 1) := withHead_inj (Option.some.inj h4)
  subst h6
  rw [← h3]
  exact toPar_unique (hL (T + 1)) h2

/-- C121. A single call with a learning rate below the threshold of its batch takes the parameters no further away
from any parameters that reproduce the batch, and strictly nearer unless they reproduce it already. -/
theorem C121_call (h : FixedFront pre s m) (hu : 0 < u) {p : Part w} (hp : p.Fine pre s u m) (hl : l.Linear u m) :
    ∃ l', (withHead pre l).train [p.call] = some (withHead pre l') ∧ l'.Linear u m
      ∧ ∀ l'' : Dense (Cf w ℝ), l''.Fits pre u m [p] →
        l'.distSq l'' ≤ l.distSq l'' ∧ (¬ l.Fits pre u m [p] → l'.distSq l'' < l.distSq l'') := by
  obtain ⟨W, b, hl⟩ := hl
  have hb : ∀ p' ∈ [p], p'.pts ≠ [] ∧ ∀ q ∈ p'.pts, q.1.HasSize s ∧ q.2.length = u := by
    intro p' hp'
    obtain rfl := List.mem_singleton.mp hp'
    exact ⟨hp.ne, hp.sized⟩
  obtain ⟨l', W', b', h1, h2, h3⟩ := h.train_par hl hb
  refine ⟨l', h1, ⟨W', b', h2⟩, fun l'' hf => ?_⟩
  obtain ⟨W'', b'', hl''⟩ := hf.1
  have hf' := (h.fits_par hl'' fun p hp => (hb p hp).2).mp hf
  have hsub := epoch_sub hf' (toPar u m W b)
  rw [← h3] at hsub
  have hsh := epoch_shrinks h hu (bs := [p]) (by simpa using hp)
  rw [distSq_eq h2 hl'', distSq_eq hl hl'', hsub]
  have hle := hsh.le (toPar u m W b - toPar u m W'' b'')
  refine ⟨by gcongr, fun hn => ?_⟩
  have hlt : ‖epochMap pre u m [p] (toPar u m W b - toPar u m W'' b'')‖ < ‖toPar u m W b - toPar u m W'' b''‖ := by
    refine lt_of_le_of_ne hle fun he => hn ?_
    rw [h.fits_par hl fun p hp => (hb p hp).2]
    intro p' hp'
    have := (mem_silentOn _).mp (hsh.eq _ he) p' hp'
    rw [map_sub, sub_eq_zero] at this
    rw [this]
    exact hf' p' hp'
  gcongr

/-- C121. If some parameters reproduce all targets of all batches, and every learning rate is below the threshold of
its batch, then training in epochs converges to such parameters, to the nearest ones to the start, and the
distance falls at least by a fixed factor below 1 with every epoch. The factor does not depend on the start. The
errors on all batches tend to zero. -/
theorem C121_limit (h : FixedFront pre s m) (hu : 0 < u) (hb : ∀ p ∈ bs, p.Fine pre s u m)
    (hex : ∃ l : Dense (Cf w ℝ), l.Fits pre u m bs) : ∃ ρ : ℝ, 0 ≤ ρ ∧ ρ < 1 ∧
      ∀ L : Nat → Dense (Cf w ℝ), EpochRun pre u m bs L → ∃ l' : Dense (Cf w ℝ), l'.Fits pre u m bs
        ∧ (∀ T : Nat, (L T).distSq l' ≤ ρ ^ T * (L 0).distSq l')
        ∧ (∀ p ∈ bs, ∀ e : Nat → ℝ, (∀ T : Nat, BatchError (withHead pre (L T)) p.pts (e T)) → Tendsto e atTop (𝓝 0))
        ∧ ∀ l'' : Dense (Cf w ℝ), l''.Fits pre u m bs → (L 0).distSq l'' = (L 0).distSq l' + l'.distSq l'' := by
  have hb1 : ∀ p ∈ bs, p.pts ≠ [] ∧ ∀ q ∈ p.pts, q.1.HasSize s ∧ q.2.length = u :=
    fun p hp => ⟨(hb p hp).ne, (hb p hp).sized⟩
  have hb2 : ∀ p ∈ bs, ∀ q ∈ p.pts, q.1.HasSize s ∧ q.2.length = u := fun p hp => (hb p hp).sized
  have hsh := epoch_shrinks h hu hb
  obtain ⟨ρ, r0, r1, hr⟩ := hsh.factor
  refine ⟨ρ ^ 2, by positivity, by nlinarith, fun L hrun => ?_⟩
  obtain ⟨l0, hf0⟩ := hex
  obtain ⟨W0, b0, hl0⟩ := hf0.1
  have hm0 := (h.fits_par hl0 hb2).mp hf0
  obtain ⟨θ, h1, h2⟩ := h.epochs hb1 hrun
  -- the nearest solution
  obtain ⟨y, hy, z, hz, hyz⟩ := (silentOn pre u m bs).exists_add_mem_mem_orthogonal (θ 0 - toPar u m W0 b0)
  obtain ⟨l', W', b', hl', e'⟩ := exists_layer (w := w) u m (toPar u m W0 b0 + y)
  have hm' : ∀ p ∈ bs, design u m (featX pre p.pts) (toPar u m W' b') = targY u p.pts := by
    intro p hp
    rw [e', map_add, hm0 p hp, (mem_silentOn y).mp hy p hp, add_zero]
  have hd0 : θ 0 - toPar u m W' b' = z := by
    rw [e', ← sub_sub, hyz]
    abel
  have hT : ∀ T, θ T - toPar u m W' b' = ((epochMap pre u m bs) ^ T) z := by
    intro T
    induction T with
    | zero => simpa using hd0
    | succ T ih => rw [h1, epoch_sub hm', ih, pow_succ', Module.End.mul_apply]
  refine ⟨l', (h.fits_par hl' hb2).mpr hm', fun T => ?_, fun p hp e he => ?_, fun l'' hf'' => ?_⟩
  · obtain ⟨WT, bT, hWT, hθT⟩ := h2 T
    obtain ⟨Wo, bo, hWo, hθo⟩ := h2 0
    rw [distSq_eq hWT hl', distSq_eq hWo hl', ← hθT, ← hθo, hT T, hd0, ← pow_mul, Nat.mul_comm, pow_mul, ← mul_pow]
    have := hr z hz T
    gcongr
  · obtain ⟨K, hs⟩ := (hb p hp).setting h hu
    have hK : 0 ≤ |K| := abs_nonneg K
    have hbd : ∀ T, e T ≤ |K| * ‖z‖ ^ 2 * (ρ ^ 2) ^ T := by
      intro T
      obtain ⟨WT, bT, hWT, hθT⟩ := h2 T
      have e1 : e T = ‖design u m (featX pre p.pts) (θ T - toPar u m W' b')‖ ^ 2 := by
        rw [(h.error hWT (hb2 p hp) (e T)).mp (he T), ← hθT, map_sub, hm' p hp]
      rw [e1, hT]
      refine (hs.bound _).trans ?_
      have h3 := hr z hz T
      have h4 : ‖((epochMap pre u m bs) ^ T) z‖ ^ 2 ≤ (ρ ^ T * ‖z‖) ^ 2 := by gcongr
      calc K * ‖((epochMap pre u m bs) ^ T) z‖ ^ 2 ≤ |K| * ‖((epochMap pre u m bs) ^ T) z‖ ^ 2 := by
            gcongr
            exact le_abs_self K
        _ ≤ |K| * (ρ ^ T * ‖z‖) ^ 2 := by gcongr
        _ = _ := by ring
    have hpos : ∀ T, 0 ≤ e T := by
      intro T
      obtain ⟨WT, bT, hWT, hθT⟩ := h2 T
      rw [(h.error hWT (hb2 p hp) (e T)).mp (he T)]
      positivity
    refine squeeze_zero hpos hbd ?_
    have := (tendsto_pow_atTop_nhds_zero_of_lt_one (r := ρ ^ 2) (by positivity) (by nlinarith)).const_mul (|K| * ‖z‖ ^ 2)
    simpa using this
  · obtain ⟨W'', b'', hl''⟩ := hf''.1
    have hm'' := (h.fits_par hl'' hb2).mp hf''
    obtain ⟨Wo, bo, hWo, hθo⟩ := h2 0
    rw [distSq_eq hWo hl'', distSq_eq hWo hl', distSq_eq hl' hl'', ← hθo]
    have hin : toPar u m W' b' - toPar u m W'' b'' ∈ silentOn pre u m bs := by
      rw [mem_silentOn]
      intro p hp
      rw [map_sub, hm' p hp, hm'' p hp, sub_self]
    have h0 : inner ℂ (θ 0 - toPar u m W' b') (toPar u m W' b' - toPar u m W'' b'') = (0 : ℂ) := by
      rw [hd0]
      exact Submodule.inner_left_of_mem_orthogonal hin hz
    rw [← sub_add_sub_cancel (θ 0) (toPar u m W' b') (toPar u m W'' b''), sq, sq, sq]
    exact norm_add_sq_eq_norm_sq_add_norm_sq_of_inner_eq_zero _ _ h0

/-! ## Any order -/

/-- C121. Training with batches in any order never fails. -/
theorem C121_any_run (h : FixedFront pre s m) (hl : l.Linear u m) {σ : Nat → Part w}
    (hb : ∀ k, (σ k).pts ≠ [] ∧ ∀ q ∈ (σ k).pts, q.1.HasSize s ∧ q.2.length = u) :
    ∃ L, L 0 = l ∧ CallRun pre u m σ L := by
  obtain ⟨W, b, hl⟩ := hl
  have key : ∀ T : Nat, ∃ l', (withHead pre l).train ((List.range T).map fun k => (σ k).call) = some (withHead pre l')
      ∧ l'.Linear u m := by
    intro T
    obtain ⟨l', W', b', h1, h2, -⟩ := h.train_par hl (bs := (List.range T).map σ) (by
      intro p hp
      obtain ⟨k, -, rfl⟩ := List.mem_map.mp hp
      exact hb k)
    rw [List.map_map] at h1
    exact ⟨l', h1, W', b', h2⟩
  choose L hL using key
  have h0 : L 0 = l := (withHead_inj (Option.some.inj (hL 0).1)).symm
  refine ⟨L, h0, fun T => (hL T).2, fun T => ?_⟩
  rw [h0]
  exact (hL T).1

theorem FixedFront.calls (h : FixedFront pre s m) {σ : Nat → Part w}
    (hb : ∀ k, (σ k).pts ≠ [] ∧ ∀ q ∈ (σ k).pts, q.1.HasSize s ∧ q.2.length = u)
    {L : Nat → Dense (Cf w ℝ)} (hrun : CallRun pre u m σ L) :
    ∃ θ : Nat → Par u m, (∀ k, θ (k + 1) = Part.next pre u m (θ k) (σ k))
      ∧ ∀ T, ∃ W b, (L T).Is u m W b .none ∧ θ T = toPar u m W b := by
  choose W b hL using hrun.linear
  refine ⟨fun T => toPar u m (W T) (b T), ?_, fun T => ⟨W T, b T, hL T, rfl⟩⟩
  intro T
  obtain ⟨l', W', b', h1, h2, h3⟩ := h.train_par (hL T) (bs := [σ T]) (by
    intro p hp
    obtain rfl := List.mem_singleton.mp hp
    exact hb T)
  have h4 := hrun.train (T + 1)
  rw [List.range_succ, List.map_append, Net.train, List.foldlM_append] at h4
  have h5 := hrun.train T
  rw [Net.train] at h5 h1
  rw [h5] at h4
  have h6 : some (withHead pre l') = some (withHead pre (L (T + 1))) := h1.symm.trans h4
  have h7 : l' = L (T + 1) := withHead_inj (Option.some.inj h6)
  subst h7
  exact (toPar_unique (hL (T + 1)) h2).trans h3

/-- C121. The order of the batches does not matter. If some parameters reproduce all targets of all batches, every
learning rate is below the threshold of its batch, and every batch is used again and again, in whatever order, then
the parameters converge to the nearest ones that reproduce all batches, and the errors on all batches tend to zero. -/
theorem C121_any_order (h : FixedFront pre s m) (hu : 0 < u) (hb : ∀ p ∈ bs, p.Fine pre s u m)
    (hex : ∃ l : Dense (Cf w ℝ), l.Fits pre u m bs) {σ : Nat → Part w} (hσ : ∀ k, σ k ∈ bs)
    (hio : ∀ p ∈ bs, ∀ k : Nat, ∃ k', k ≤ k' ∧ σ k' = p) {L : Nat → Dense (Cf w ℝ)} (hrun : CallRun pre u m σ L) :
    ∃ l' : Dense (Cf w ℝ), l'.Fits pre u m bs ∧ Tendsto (fun T => (L T).distSq l') atTop (𝓝 0)
      ∧ (∀ p ∈ bs, ∀ e : Nat → ℝ, (∀ T : Nat, BatchError (withHead pre (L T)) p.pts (e T)) → Tendsto e atTop (𝓝 0))
      ∧ ∀ l'' : Dense (Cf w ℝ), l''.Fits pre u m bs → (L 0).distSq l'' = (L 0).distSq l' + l'.distSq l'' := by
  have hb2 : ∀ p ∈ bs, ∀ q ∈ p.pts, q.1.HasSize s ∧ q.2.length = u := fun p hp => (hb p hp).sized
  obtain ⟨l0, hf0⟩ := hex
  obtain ⟨W0, b0, hl0⟩ := hf0.1
  have hm0 := (h.fits_par hl0 hb2).mp hf0
  obtain ⟨θ, h1, h2⟩ := h.calls (fun k => ⟨(hb _ (hσ k)).ne, (hb _ (hσ k)).sized⟩) hrun
  have hfin : Finite {p // p ∈ bs} := (List.finite_toSet bs).to_subtype
  obtain ⟨y, hy, hlim, hperp⟩ := LeastSquares.Shrinks.anyOrder (ι := {p // p ∈ bs})
    (M := fun p => p.1.map pre u m) (N := fun p => LinearMap.ker (design u m (featX pre p.1.pts)))
    (fun p => by
      obtain ⟨K, hs⟩ := (hb p.1 p.2).setting h hu
      exact hs.shrinks) (σ := fun k => ⟨σ k, hσ k⟩)
    (fun p k => by
      obtain ⟨k', hk, e⟩ := hio p.1 p.2 k
      exact ⟨k', hk, Subtype.ext e⟩)
    (d := fun k => θ k - toPar u m W0 b0)
    (fun k => by
      rw [h1]
      exact LeastSquares.next_sub (hm0 _ (hσ k)) (θ k))
  obtain ⟨l', W', b', hl', e'⟩ := exists_layer (w := w) u m (toPar u m W0 b0 + y)
  have hm' : ∀ p ∈ bs, design u m (featX pre p.pts) (toPar u m W' b') = targY u p.pts := by
    intro p hp
    rw [e', map_add, hm0 p hp, LinearMap.mem_ker.mp (hy ⟨p, hp⟩), add_zero]
  have hθ : Tendsto (fun T => θ T - toPar u m W' b') atTop (𝓝 0) := by
    have := hlim.sub_const y
    rw [sub_self] at this
    refine this.congr fun T => ?_
    rw [e']
    abel
  have hθn : Tendsto (fun T => ‖θ T - toPar u m W' b'‖ ^ 2) atTop (𝓝 0) := by
    have := hθ.norm.pow 2
    simpa using this
  refine ⟨l', (h.fits_par hl' hb2).mpr hm', ?_, fun p hp e he => ?_, fun l'' hf'' => ?_⟩
  · refine hθn.congr fun T => ?_
    obtain ⟨WT, bT, hWT, hθT⟩ := h2 T
    rw [hθT, distSq_eq hWT hl']
  · obtain ⟨K, hs⟩ := (hb p hp).setting h hu
    have hval : ∀ T, e T = ‖design u m (featX pre p.pts) (θ T - toPar u m W' b')‖ ^ 2 := by
      intro T
      obtain ⟨WT, bT, hWT, hθT⟩ := h2 T
      rw [(h.error hWT (hb2 p hp) (e T)).mp (he T), ← hθT, map_sub, hm' p hp]
    refine squeeze_zero (fun T => ?_) (fun T => ?_) (by simpa using hθn.const_mul K)
    · rw [hval]
      positivity
    · rw [hval]
      exact hs.bound _
  · obtain ⟨W'', b'', hl''⟩ := hf''.1
    have hm'' := (h.fits_par hl'' hb2).mp hf''
    obtain ⟨Wo, bo, hWo, hθo⟩ := h2 0
    rw [distSq_eq hWo hl'', distSq_eq hWo hl', distSq_eq hl' hl'', ← hθo]
    have hin : toPar u m W' b' - toPar u m W'' b''
        ∈ ⨅ p : {p // p ∈ bs}, LinearMap.ker (design u m (featX pre p.1.pts)) := by
      rw [Submodule.mem_iInf]
      rintro ⟨p, hp⟩
      rw [LinearMap.mem_ker, map_sub, hm' p hp, hm'' p hp, sub_self]
    have hz : θ 0 - toPar u m W' b'
        ∈ (⨅ p : {p // p ∈ bs}, LinearMap.ker (design u m (featX pre p.1.pts)))ᗮ := by
      rw [e', ← sub_sub]
      exact hperp
    have h0 : inner ℂ (θ 0 - toPar u m W' b') (toPar u m W' b' - toPar u m W'' b'') = (0 : ℂ) :=
      Submodule.inner_left_of_mem_orthogonal hin hz
    rw [← sub_add_sub_cancel (θ 0) (toPar u m W' b') (toPar u m W'' b''), sq, sq, sq]
    exact norm_add_sq_eq_norm_sq_add_norm_sq_of_inner_eq_zero _ _ h0

/-! ## Batches that cannot be reproduced together -/

/-- The input 0 with target `t`. -/
noncomputable def zeroPoint (t : ℝ) : IOType (Cf w ℝ) × List (Cf w ℝ) := ((exPoint 0).1, [⟨t, 0⟩])

theorem zeroPoint_size (t : ℝ) : ∀ q ∈ [(zeroPoint t : IOType (Cf w ℝ) × List (Cf w ℝ))],
    q.1.HasSize (.maps 1 1 1) ∧ q.2.length = 1 := by
  simp [zeroPoint, exPoint, IOType.HasSize, Mat.fromBody, Mat.Rect]

theorem zero_rateSum (t : ℝ) :
    rateSum (exFront : List (Layer (Cf w ℝ))) [zeroPoint t] 1 = 1 := by
  have := ex_rateSum (w := w) 0 1
  simpa [rateSum, zeroPoint] using this

theorem zeroPoint_fine (f : LossFunc) {t r : ℝ} (h0 : 0 < r) (h2 : r < 2) :
    (⟨[zeroPoint t], f, r⟩ : Part w).Fine exFront (.maps 1 1 1) 1 1 where
  ne := by simp
  sized := zeroPoint_size t
  pos := h0
  small K hK := by
    obtain ⟨K', -, h1, -, h3⟩ := C120_steepness (exFront_front (w := w)) one_pos (zeroPoint_size t)
    rw [zero_rateSum] at h3
    have : K = K' := h1 K hK
    have h1 : ([(zeroPoint t : IOType (Cf w ℝ) × List (Cf w ℝ))].length : ℝ) = 1 := by simp
    show r * K < 2 * ([(zeroPoint t : IOType (Cf w ℝ) × List (Cf w ℝ))].length : ℝ)
    rw [h1]
    nlinarith

theorem zero_feat {N : List (IOType (Cf w ℝ) × List (Cf w ℝ))} (hN : ∀ q ∈ N, ∃ t, q = zeroPoint t)
    (q : Fin N.length) (i : Nat) : featX (exFront : List (Layer (Cf w ℝ))) N q i = 0 := by
  obtain ⟨t, ht⟩ := hN N[q] (List.getElem_mem _)
  have : features (exFront : List (Layer (Cf w ℝ))) N[q].1 = [⟨0, 0⟩] := by
    rw [ht]
    exact exFront_features 0
  simp only [featX, this]
  rcases i with _ | i <;> simp [at'] <;> rfl

/-- A training call with such a point only changes the bias. -/
theorem zero_next (f : LossFunc) (t r β : ℝ) :
    Part.next (exFront : List (Layer (Cf w ℝ))) 1 1 (toPar 1 1 (fun _ _ => (0 : Cf w ℝ)) fun _ => ⟨β, 0⟩)
      ⟨[zeroPoint t], f, r⟩ = toPar 1 1 (fun _ _ => (0 : Cf w ℝ)) fun _ => ⟨β - r * (β - t), 0⟩ := by
  have hX := zero_feat (w := w) (N := [zeroPoint t]) (by simp)
  have hsub : Subsingleton (Fin [(zeroPoint t : IOType (Cf w ℝ) × List (Cf w ℝ))].length) :=
    inferInstanceAs (Subsingleton (Fin 1))
  have hY : ∀ p, targY 1 [(zeroPoint t : IOType (Cf w ℝ) × List (Cf w ℝ))] p = t := by
    rintro ⟨q, j⟩
    obtain rfl : q = ⟨0, by simp⟩ := Subsingleton.elim _ _
    obtain rfl : j = 0 := Subsingleton.elim _ _
    rfl
  have hA : ∀ (θ : Par 1 1) (p : Fin [(zeroPoint t : IOType (Cf w ℝ) × List (Cf w ℝ))].length × Fin 1),
      (design 1 1 (featX (exFront : List (Layer (Cf w ℝ))) [zeroPoint t]) θ) p = θ (.inr 0) := by
    rintro θ ⟨q, j⟩
    obtain rfl : j = 0 := Subsingleton.elim _ _
    simp [design, hX]
  have hβ : ∀ x : ℝ, Cf.toC (⟨x, 0⟩ : Cf w ℝ) = (x : ℂ) := fun _ => rfl
  unfold Part.next
  ext i
  rcases i with ⟨j, i⟩ | j
  · simp [LeastSquares.next, designAdj, hX, toPar]
  · simp only [LeastSquares.next, PiLp.sub_apply, PiLp.smul_apply, designAdj, LinearMap.coe_mk,
      AddHom.coe_mk, Sum.elim_inr, hA, hY, toPar, hβ]
    simp

/-- C121, the assumption that all targets can be reproduced is needed. For every learning rate `0 < r < 2` (the
threshold is 2) there are two batches and parameters that an epoch brings back to where they were although their
error on all points is not the least one: training in epochs never finds better ones. -/
theorem C121_stuck (f : LossFunc) {r : ℝ} (h0 : 0 < r) (h2 : r < 2) :
    ∃ (pre : List (Layer (Cf w ℝ))) (s : Size) (p p' : Part w) (L : Nat → Dense (Cf w ℝ)) (e e' : ℝ)
      (l' : Dense (Cf w ℝ)), FixedFront pre s 1 ∧ p.Fine pre s 1 1 ∧ p'.Fine pre s 1 1 ∧ p.rate = r ∧ p'.rate = r
      ∧ EpochRun pre 1 1 [p, p'] L ∧ (∀ T : Nat, BatchError (withHead pre (L T)) (p.pts ++ p'.pts) e)
      ∧ l'.Linear 1 1 ∧ BatchError (withHead pre l') (p.pts ++ p'.pts) e' ∧ e' < e := by
  have hfr := exFront_front (w := w)
  have hp := zeroPoint_fine (w := w) (t := 0) f h0 h2
  have hp' := zeroPoint_fine (w := w) (t := 1) f h0 h2
  have hb : ∀ p ∈ [(⟨[zeroPoint 0], f, r⟩ : Part w), ⟨[zeroPoint 1], f, r⟩], p.Fine exFront (.maps 1 1 1) 1 1 := by
    intro p h
    simp only [List.mem_cons, List.not_mem_nil, or_false] at h
    rcases h with rfl | rfl
    · exact hp
    · exact hp'
  have hb1 : ∀ p ∈ [(⟨[zeroPoint 0], f, r⟩ : Part w), ⟨[zeroPoint 1], f, r⟩], p.pts ≠ []
      ∧ ∀ q ∈ p.pts, q.1.HasSize (.maps 1 1 1) ∧ q.2.length = 1 := fun p h => ⟨(hb p h).ne, (hb p h).sized⟩
  obtain ⟨L, hL0, hrun⟩ := C121_run (l := exHead ⟨1 / (2 - r), 0⟩) hfr ⟨_, _, exHead_is _⟩ hb1
  have hr2 : 2 - r ≠ 0 := by linarith
  have hsz : ∀ q ∈ [(zeroPoint 0 : IOType (Cf w ℝ) × List (Cf w ℝ))] ++ [zeroPoint 1], q.1.HasSize (.maps 1 1 1) := by
    intro q hq
    rcases List.mem_append.mp hq with hq | hq
    · exact (zeroPoint_size 0 q hq).1
    · exact (zeroPoint_size 1 q hq).1
  have herr : ∀ (l : Dense (Cf w ℝ)) (W : Nat → Nat → Cf w ℝ) (b : Nat → Cf w ℝ) (β : ℝ), l.Is 1 1 W b .none →
      toPar 1 1 W b = toPar 1 1 (fun _ _ => (0 : Cf w ℝ)) (fun _ => ⟨β, 0⟩) →
      BatchError (withHead exFront l) ([(zeroPoint 0 : IOType (Cf w ℝ) × List (Cf w ℝ))] ++ [zeroPoint 1])
        (β ^ 2 + (β - 1) ^ 2) := by
    intro l W b β hl hβ
    have hsz2 : ∀ q ∈ [(zeroPoint 0 : IOType (Cf w ℝ) × List (Cf w ℝ))] ++ [zeroPoint 1],
        q.1.HasSize (.maps 1 1 1) ∧ q.2.length = 1 := by
      intro q hq
      rcases List.mem_append.mp hq with hq | hq
      · exact zeroPoint_size 0 q hq
      · exact zeroPoint_size 1 q hq
    rw [hfr.error hl hsz2, hβ, residual_sum _ _ fun q hq => (hsz2 q hq).2]
    have hout : ∀ x : IOType (Cf w ℝ), (List.range 1).map (headOut exFront 1 (fun _ _ => (0 : Cf w ℝ))
        (fun _ => ⟨β, 0⟩) x) = [⟨β, 0⟩] := by
      intro x
      simp [headOut]
    have hsq : ∀ t : ℝ, sqSum [(⟨t, 0⟩ : Cf w ℝ)] [⟨β, 0⟩] = (β - t) ^ 2 := by
      intro t
      have h1 : Cf.toC (⟨t, 0⟩ : Cf w ℝ) - Cf.toC (⟨β, 0⟩ : Cf w ℝ) = ((t - β : ℝ) : ℂ) := by
        rw [Complex.ofReal_sub]
        rfl
      simp only [sqSum, List.zip_cons_cons, List.zip_nil_left, List.map_cons, List.map_nil, List.sum_cons, List.sum_nil, add_zero]
      rw [h1, Complex.norm_real, Real.norm_eq_abs, sq_abs]
      ring
    simp only [List.cons_append, List.nil_append, List.map_cons, List.map_nil, List.sum_cons, List.sum_nil, hout,
      zeroPoint, hsq]
    ring
  have hstay : ∀ T, ∃ W b, (L T).Is 1 1 W b .none
      ∧ toPar 1 1 W b = toPar 1 1 (fun _ _ => (0 : Cf w ℝ)) (fun _ => ⟨1 / (2 - r), 0⟩) := by
    obtain ⟨θ, h1, h2⟩ := hfr.epochs hb1 hrun
    have hθ : ∀ T, θ T = toPar 1 1 (fun _ _ => (0 : Cf w ℝ)) (fun _ => ⟨1 / (2 - r), 0⟩) := by
      intro T
      induction T with
      | zero =>
        obtain ⟨W, b, hW, hθ⟩ := h2 0
        rw [hL0] at hW
        rw [hθ, toPar_unique hW (exHead_is _)]
      | succ T ih =>
        rw [h1, ih, List.foldl_cons, List.foldl_cons, List.foldl_nil, zero_next, zero_next]
        congr 2
        funext _
        congr 1
        field_simp
        ring
    intro T
    obtain ⟨W, b, hW, hθT⟩ := h2 T
    exact ⟨W, b, hW, by rw [← hθT, hθ]⟩
  refine ⟨exFront, _, ⟨[zeroPoint 0], f, r⟩, ⟨[zeroPoint 1], f, r⟩, L, (1 / (2 - r)) ^ 2 + (1 / (2 - r) - 1) ^ 2, _, exHead ⟨1 / 2, 0⟩, hfr, hp, hp', rfl, rfl,
    hrun, fun T => ?_, ⟨_, _, exHead_is _⟩, herr _ _ _ (1 / 2) (exHead_is _) rfl, ?_⟩
  · obtain ⟨W, b, hW, hβ⟩ := hstay T
    exact herr _ _ _ _ hW hβ
  · have h3 : (1 / (2 - r) - 1 / 2) ≠ 0 := by
      have : 1 / (2 - r) - 1 / 2 = r / (2 * (2 - r)) := by
        field_simp
        ring
      rw [this]
      positivity
    nlinarith [sq_nonneg (1 / (2 - r) - 1 / 2), pow_pos (abs_pos.mpr h3) 2, sq_abs (1 / (2 - r) - 1 / 2)]

/-! ## Convolutional layers -/

section images
variable {nf n p q r c : Nat}

theorem Part.FineImages.patches (hp : 1 ≤ p ∧ p ≤ r) (hq : 1 ≤ q ∧ q ≤ c) {x : Part w}
    (hx : x.FineImages nf n p q r c) :
    (x.patches nf p q r c).Fine (patchFront n p q) (.maps n p q) nf (n * (p * q)) where
  ne := patches_ne hx.ne
  sized := patches_size hp hq hx.sized
  pos := by
    have hpos : (0 : ℝ) < (((r - p + 1) * (c - q + 1) : Nat) : ℝ) := by
      exact_mod_cast Nat.mul_pos (by omega) (by omega)
    exact mul_pos hx.pos hpos
  small K hK := patches_rate (hx.small K hK)

theorem Conv.fits_patches (hf : 0 < nf) (hn : 0 < n) (hp : 1 ≤ p ∧ p ≤ r) (hq : 1 ≤ q ∧ q ≤ c)
    (hb : ∀ x ∈ bs, x.FineImages nf n p q r c) {l : Conv (Cf w ℝ)} {d : Dense (Cf w ℝ)}
    (h : SameWeights nf n p q .none l d) :
    l.Fits nf n p q r c bs ↔ d.Fits (patchFront n p q) nf (n * (p * q)) (bs.map (Part.patches nf p q r c)) := by
  have hset := none_setting (w := w) hf hn hp hq
  unfold Conv.Fits Dense.Fits
  rw [and_iff_right h.linear.1, and_iff_right h.linear.2, List.forall_mem_map]
  exact forall₂_congr fun x hx => C119_error hset h (hb x hx).sized 0

theorem ImageEpochs.patches (hf : 0 < nf) (hn : 0 < n) (hp : 1 ≤ p ∧ p ≤ r) (hq : 1 ≤ q ∧ q ≤ c)
    (hb : ∀ x ∈ bs, x.FineImages nf n p q r c) {L : Nat → Conv (Cf w ℝ)} (hr : ImageEpochs nf n p q r c bs L) :
    ∃ D : Nat → Dense (Cf w ℝ), (∀ T, SameWeights nf n p q .none (L T) (D T))
      ∧ EpochRun (patchFront n p q) nf (n * (p * q)) (bs.map (Part.patches nf p q r c)) D := by
  have hset := none_setting (w := w) hf hn hp hq
  obtain ⟨d, hd⟩ := exists_sameDense (hr.linear 0)
  have key : ∀ T : Nat, ∃ d', (withHead (patchFront n p q) d).train
        ((List.replicate T (bs.map (Part.patches nf p q r c))).flatten.map Part.call)
        = some (withHead (patchFront n p q) d')
      ∧ SameWeights nf n p q .none (L T) d' := by
    intro T
    obtain ⟨l', d', h1, h2, h3⟩ := C119_training hset hd
      ((List.replicate T bs).flatten.map fun x => (x.pts, x.loss, (⟨x.rate, 0⟩ : Cf w ℝ))) (by
        intro st hst
        obtain ⟨x, hx, rfl⟩ := List.mem_map.mp hst
        obtain ⟨y, hy, hxy⟩ := List.mem_flatten.mp hx
        obtain rfl := List.eq_of_mem_replicate hy
        exact ⟨(hb x hxy).sized, (hb x hxy).ne⟩)
    have h4 := hr.train T
    rw [List.map_map] at h1
    have h5 : imageNet nf (r - p + 1) (c - q + 1) l' = imageNet nf (r - p + 1) (c - q + 1) (L T) :=
      Option.some.inj (h1.symm.trans h4)
    have h6 : l' = L T := by
      simpa [imageNet] using h5
    refine ⟨d', ?_, h6 ▸ h3⟩
    rw [← h2, List.map_map]
    congr 1
    rw [← List.map_replicate, ← List.map_flatten, List.map_map]
    refine List.map_congr_left fun x _ => ?_
    simp only [Function.comp_apply, Part.call, Part.patches, timesRate, zero_mul]
  choose D hD using key
  have h0 : D 0 = d := by
    have := (hD 0).1
    exact (withHead_inj (Option.some.inj this)).symm
  refine ⟨D, fun T => (hD T).2, fun T => (hD T).2.linear.2, fun T => ?_⟩
  rw [h0]
  exact (hD T).1

/-- C121, convolutional layers. Training in epochs never fails. -/
theorem C121_images_run (hf : 0 < nf) (hn : 0 < n) (hp : 1 ≤ p ∧ p ≤ r) (hq : 1 ≤ q ∧ q ≤ c)
    (hb : ∀ x ∈ bs, Images nf n p q r c x.pts ∧ x.pts ≠ []) {l : Conv (Cf w ℝ)} (hl : l.Linear nf n p q) :
    ∃ L, L 0 = l ∧ ImageEpochs nf n p q r c bs L := by
  have hset := none_setting (w := w) hf hn hp hq
  obtain ⟨d, hd⟩ := exists_sameDense hl
  have key : ∀ T : Nat, ∃ l', (imageNet nf (r - p + 1) (c - q + 1) l).train ((List.replicate T bs).flatten.map Part.call)
      = some (imageNet nf (r - p + 1) (c - q + 1) l') ∧ l'.Linear nf n p q := by
    intro T
    obtain ⟨l', d', h1, -, h3⟩ := C119_training hset hd
      ((List.replicate T bs).flatten.map fun x => (x.pts, x.loss, (⟨x.rate, 0⟩ : Cf w ℝ))) (by
        intro st hst
        obtain ⟨x, hx, rfl⟩ := List.mem_map.mp hst
        obtain ⟨y, hy, hxy⟩ := List.mem_flatten.mp hx
        obtain rfl := List.eq_of_mem_replicate hy
        exact hb x hxy)
    rw [List.map_map] at h1
    exact ⟨l', h1, h3.linear.1⟩
  choose L hL using key
  have h0 : L 0 = l := by
    have := Option.some.inj (hL 0).1
    simpa [imageNet] using this.symm
  refine ⟨L, h0, fun T => (hL T).2, fun T => ?_⟩
  rw [h0]
  exact (hL T).1

/-- C121, convolutional layers. If some kernels and biases reproduce all targets of all batches of images, and every
learning rate is below the threshold of its batch, then training in epochs converges to such kernels and biases, to
the nearest ones to the start, and the distance falls at least by a fixed factor below 1 with every epoch. -/
theorem C121_images (hf : 0 < nf) (hn : 0 < n) (hp : 1 ≤ p ∧ p ≤ r) (hq : 1 ≤ q ∧ q ≤ c)
    (hb : ∀ x ∈ bs, x.FineImages nf n p q r c) (hex : ∃ l : Conv (Cf w ℝ), l.Fits nf n p q r c bs) :
    ∃ ρ : ℝ, 0 ≤ ρ ∧ ρ < 1 ∧
      ∀ L : Nat → Conv (Cf w ℝ), ImageEpochs nf n p q r c bs L → ∃ l' : Conv (Cf w ℝ), l'.Fits nf n p q r c bs
        ∧ (∀ T : Nat, (L T).distSq l' ≤ ρ ^ T * (L 0).distSq l')
        ∧ ∀ l'' : Conv (Cf w ℝ), l''.Fits nf n p q r c bs → (L 0).distSq l'' = (L 0).distSq l' + l'.distSq l'' := by
  have hfr := patch_front (w := w) hn hp.1 hq.1
  have hb' : ∀ x ∈ bs.map (Part.patches nf p q r c), x.Fine (patchFront n p q) (.maps n p q) nf (n * (p * q)) := by
    intro x hx
    obtain ⟨y, hy, rfl⟩ := List.mem_map.mp hx
    exact (hb y hy).patches hp hq
  obtain ⟨l0, hl0⟩ := hex
  obtain ⟨d0, hd0⟩ := exists_sameDense hl0.1
  obtain ⟨ρ, r0, r1, hρ⟩ := C121_limit hfr hf hb' ⟨d0, (Conv.fits_patches hf hn hp hq hb hd0).mp hl0⟩
  refine ⟨ρ, r0, r1, fun L hL => ?_⟩
  obtain ⟨D, hD, hrun⟩ := hL.patches hf hn hp hq hb
  obtain ⟨d', h1, h2, -, h4⟩ := hρ D hrun
  obtain ⟨l', hl'⟩ := exists_sameConv h1.1
  refine ⟨l', (Conv.fits_patches hf hn hp hq hb hl').mpr h1, fun T => ?_, fun l'' hl'' => ?_⟩
  · rw [(hD T).dist hl', (hD 0).dist hl']
    exact h2 T
  · obtain ⟨d'', hd''⟩ := exists_sameDense hl''.1
    rw [(hD 0).dist hd'', (hD 0).dist hl', hl'.dist hd'']
    exact h4 d'' ((Conv.fits_patches hf hn hp hq hb hd'').mp hl'')

/-- C121, convolutional layers. The order of the batches of images does not matter. -/
theorem C121_images_any_order (hf : 0 < nf) (hn : 0 < n) (hp : 1 ≤ p ∧ p ≤ r) (hq : 1 ≤ q ∧ q ≤ c)
    (hb : ∀ x ∈ bs, x.FineImages nf n p q r c) (hex : ∃ l : Conv (Cf w ℝ), l.Fits nf n p q r c bs)
    {σ : Nat → Part w} (hσ : ∀ k, σ k ∈ bs) (hio : ∀ x ∈ bs, ∀ k : Nat, ∃ k', k ≤ k' ∧ σ k' = x)
    {L : Nat → Conv (Cf w ℝ)} (hrun : ImageCalls nf n p q r c σ L) :
    ∃ l' : Conv (Cf w ℝ), l'.Fits nf n p q r c bs ∧ Tendsto (fun T => (L T).distSq l') atTop (𝓝 0)
      ∧ ∀ l'' : Conv (Cf w ℝ), l''.Fits nf n p q r c bs → (L 0).distSq l'' = (L 0).distSq l' + l'.distSq l'' := by
  have hset := none_setting (w := w) hf hn hp hq
  have hfr := patch_front (w := w) hn hp.1 hq.1
  have hb' : ∀ x ∈ bs.map (Part.patches nf p q r c), x.Fine (patchFront n p q) (.maps n p q) nf (n * (p * q)) := by
    intro x hx
    obtain ⟨y, hy, rfl⟩ := List.mem_map.mp hx
    exact (hb y hy).patches hp hq
  obtain ⟨l0, hl0⟩ := hex
  obtain ⟨d0, hd0⟩ := exists_sameDense hl0.1
  obtain ⟨d, hd⟩ := exists_sameDense (hrun.linear 0)
  have key : ∀ T : Nat, ∃ d', (withHead (patchFront n p q) d).train
        ((List.range T).map fun k => ((σ k).patches nf p q r c).call) = some (withHead (patchFront n p q) d')
      ∧ SameWeights nf n p q .none (L T) d' := by
    intro T
    obtain ⟨l', d', h1, h2, h3⟩ := C119_training hset hd
      ((List.range T).map fun k => ((σ k).pts, (σ k).loss, (⟨(σ k).rate, 0⟩ : Cf w ℝ))) (by
        intro st hst
        obtain ⟨k, -, rfl⟩ := List.mem_map.mp hst
        exact ⟨(hb _ (hσ k)).sized, (hb _ (hσ k)).ne⟩)
    have h4 := hrun.train T
    rw [List.map_map] at h1
    have h5 : imageNet nf (r - p + 1) (c - q + 1) l' = imageNet nf (r - p + 1) (c - q + 1) (L T) :=
      Option.some.inj (h1.symm.trans h4)
    have h6 : l' = L T := by
      simpa [imageNet] using h5
    refine ⟨d', ?_, h6 ▸ h3⟩
    rw [← h2, List.map_map]
    congr 1
    refine List.map_congr_left fun k _ => ?_
    simp only [Function.comp_apply, Part.call, Part.patches, timesRate, zero_mul]
  choose D hD using key
  have h0 : D 0 = d := (withHead_inj (Option.some.inj (hD 0).1)).symm
  have hDrun : CallRun (patchFront n p q) nf (n * (p * q)) (fun k => (σ k).patches nf p q r c) D := by
    refine ⟨fun T => (hD T).2.linear.2, fun T => ?_⟩
    rw [h0]
    exact (hD T).1
  obtain ⟨d', h1, h2, -, h4⟩ := C121_any_order hfr hf hb' ⟨d0, (Conv.fits_patches hf hn hp hq hb hd0).mp hl0⟩
    (fun k => List.mem_map_of_mem (hσ k)) (by
      intro x hx k
      obtain ⟨y, hy, rfl⟩ := List.mem_map.mp hx
      obtain ⟨k', hk, e⟩ := hio y hy k
      exact ⟨k', hk, by rw [e]⟩) hDrun
  obtain ⟨l', hl'⟩ := exists_sameConv h1.1
  refine ⟨l', (Conv.fits_patches hf hn hp hq hb hl').mpr h1, ?_, fun l'' hl'' => ?_⟩
  · have : (fun T => (L T).distSq l') = fun T => (D T).distSq d' := funext fun T => (hD T).2.dist hl'
    rw [this]
    exact h2
  · obtain ⟨d'', hd''⟩ := exists_sameDense hl''.1
    rw [(hD 0).2.dist hd'', (hD 0).2.dist hl', hl'.dist hd'']
    exact h4 d'' ((Conv.fits_patches hf hn hp hq hb hd'').mp hl'')

end images

/-! ## Non-vacuity -/

/-- The input 0 with rate 1 and the input 3 with rate 1/10, both with target 0. -/
example (f : LossFunc) : (∀ p ∈ [(⟨[zeroPoint 0], f, 1⟩ : Part .w64), ⟨[exPoint 3], f, 1 / 10⟩],
      p.Fine exFront (.maps 1 1 1) 1 1)
    ∧ (exHead 0 : Dense (Cf .w64 ℝ)).Fits exFront 1 1 [⟨[zeroPoint 0], f, 1⟩, ⟨[exPoint 3], f, 1 / 10⟩] := by
  have hfr := exFront_front (w := .w64)
  have h1 : ∀ p ∈ [(⟨[zeroPoint 0], f, 1⟩ : Part .w64), ⟨[exPoint 3], f, 1 / 10⟩], p.Fine exFront (.maps 1 1 1) 1 1 := by
    intro p hp
    simp only [List.mem_cons, List.not_mem_nil, or_false] at hp
    rcases hp with rfl | rfl
    · exact zeroPoint_fine f one_pos one_lt_two
    · refine ⟨by simp, exPoint_size 3, by norm_num, fun K hK => ?_⟩
      obtain ⟨K', -, k1, -, k3⟩ := C120_steepness hfr one_pos (exPoint_size (w := .w64) 3)
      rw [ex_rateSum] at k3
      have : K = K' := k1 K hK
      have e1 : ([(exPoint 3 : IOType (Cf .w64 ℝ) × List (Cf .w64 ℝ))].length : ℝ) = 1 := by simp
      show 1 / 10 * K < 2 * ([(exPoint 3 : IOType (Cf .w64 ℝ) × List (Cf .w64 ℝ))].length : ℝ)
      rw [e1]
      nlinarith
  refine ⟨h1, ?_⟩
  rw [hfr.fits_par (exHead_is 0) fun p hp => (h1 p hp).sized]
  have h0 : toPar 1 1 (fun _ _ => (0 : Cf .w64 ℝ)) (fun _ => 0) = 0 := by
    ext i
    rcases i with i | i <;> simp [toPar, Cf.toC_hom_zero]
  intro p hp
  rw [h0, map_zero]
  have key : ∀ x : IOType (Cf .w64 ℝ) × List (Cf .w64 ℝ), x.2 = [0] → targY 1 [x] = 0 := by
    intro x hx
    have hsub : Subsingleton (Fin [x].length) := inferInstanceAs (Subsingleton (Fin 1))
    ext ⟨q, j⟩
    obtain rfl : q = ⟨0, by simp⟩ := Subsingleton.elim _ _
    obtain rfl : j = 0 := Subsingleton.elim _ _
    simp [targY, at', hx, Cf.toC_hom_zero]
  simp only [List.mem_cons, List.not_mem_nil, or_false] at hp
  rcases hp with rfl | rfl
  · exact (key _ rfl).symm
  · exact (key _ rfl).symm

end Renplex
