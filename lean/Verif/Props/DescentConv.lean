import Verif.Props.DescentLaw
import Verif.Props.ConvNet
/-!
# C53 for networks with convolutional and pooling layers
-/

namespace Renplex
open Filter Topology
variable {w : Width}

/-- C53 for networks with convolutional and pooling layers, all hypotheses spelled out: those of
`C64_partial` for every point of the batch. -/
theorem C53_partial_conv (n : Net (Cf w ℝ)) (hl : 2 ≤ n.layers.length)
    (hw : ∀ l ∈ n.layers, l.WF)
    (pts : List (IOType (Cf w ℝ) × List (Cf w ℝ))) (hB : pts ≠ []) (f : LossFunc)
    (hp : ∀ q ∈ pts, ∃ σ acts p, q.1.HasSize σ ∧ n.collectActs q.1 = some (.ok acts)
      ∧ n.forward q.1 = some (.ok (.scalar p)) ∧ q.2.length = p.length
      ∧ (∀ a ∈ acts.zip n.layers, a.2.ActsRight a.1)
      ∧ (∀ a ∈ acts.zip n.layers, a.2.PoolRight a.1)
      ∧ ((∀ l ∈ n.layers.tail, ¬ l.IsConv)
        ∨ ∀ a ∈ acts.zip n.layers, a.2.IsConv → a.2.ActsHolo a.1)) :
    ∃ (gss : List (List (LayerVec (Cf w ℝ)))) (n' : ℝ → Net (Cf w ℝ)) (E : ℝ → ℝ),
      List.Forall₂ (fun q gs => sampleGrads n f (q.1, .scalar q.2) = some gs) pts gss
      ∧ (∀ r, n.gradientOpt ⟨pts.map (·.1), pts.map fun q => .scalar q.2⟩ f ⟨r, 0⟩
        = some (.ok (), n' r))
      ∧ (∀ᶠ r in 𝓝 (0 : ℝ), BatchError (n' r) pts (E r))
      ∧ BatchError n pts (E 0)
      ∧ HasDerivAt E (-(2 / pts.length) * normSqAll (sumGrads n gss)) 0
      ∧ ((∃ g ∈ sumGrads n gss, ∃ z ∈ g.1 ++ g.2, z ≠ 0) → ∀ᶠ r in 𝓝[>] (0 : ℝ), E r < E 0) := by
  have hn : n.layers ≠ [] := by intro h; rw [h] at hl; simp at hl
  have : ∃ gss, List.Forall₂ (fun q gs => sampleGrads n f (q.1, .scalar q.2) = some gs
      ∧ IsNetGradient n q.1 q.2 gs) pts gss := by
    clear hB
    induction pts with
    | nil => exact ⟨[], .nil⟩
    | cons q pts ih =>
      obtain ⟨gss, h⟩ := ih fun q hq => hp q (by simp [hq])
      obtain ⟨σ, acts, p, h1, h2, h3, h4, h5, h6, h7⟩ := hp q (by simp)
      obtain ⟨gs, hg⟩ := C64_partial n hn f hw q.1 σ h1 acts h2 p q.2 h3 h4 h5 h6 h7
      exact ⟨gs :: gss, .cons hg h⟩
  obtain ⟨gss, h⟩ := this
  obtain ⟨n', E, hE⟩ := C53_partial n hl hw pts hB f gss h
  exact ⟨gss, n', E, h.imp fun _ _ h => h.1, hE⟩

/-- The hypotheses can be met, with a gradient that is not zero: two convolutional identity layers that
should map 1 to 0. -/
example : ∃ (n' : ℝ → Net (Cf w ℝ)) (E : ℝ → ℝ),
    (∀ r, (exConvNet .none 0).gradientOpt ⟨[exMap 1], [.scalar [0]]⟩ .meanSquare ⟨r, 0⟩
      = some (.ok (), n' r))
      ∧ (∀ᶠ r in 𝓝 (0 : ℝ), BatchError (n' r) [(exMap 1, [0])] (E r))
      ∧ ∀ᶠ r in 𝓝[>] (0 : ℝ), E r < E 0 := by
  obtain ⟨ms, ms', k1, k2, hc, hf⟩ := exConvNet_run (w := w) (f := .none) (x := 1) (b := 0) (y := 1)
    (by rw [add_zero]; rfl)
  obtain ⟨gss, n', E, h1, h2, h3, -, -, h4⟩ := C53_partial_conv (exConvNet (w := w) .none 0)
    (by simp [exConvNet]) (exConvNet_wf _ _) [(exMap 1, [0])] (by simp) .meanSquare (by
      intro q hq
      rw [List.mem_singleton] at hq
      subst hq
      refine ⟨.maps 1 1 1, _, [1], exMap_size 1, hc, hf, rfl, ?_, ?_, .inr ?_⟩
      all_goals
        intro a ha
        simp only [exConvNet, List.zip_cons_cons, List.zip_nil_right, List.mem_cons,
          List.not_mem_nil, or_false] at ha
      · rcases ha with rfl | rfl | rfl
        · exact fun _ _ z _ => none_right z
        · exact fun _ _ z _ => none_right z
        · intro v hv z hz
          have : v = [] := (Option.some.inj hv).symm
          rw [this] at hz
          cases hz
      · rcases ha with rfl | rfl | rfl <;> trivial
      · rcases ha with rfl | rfl | rfl
        · exact fun _ _ _ z _ => none_conj z
        · exact fun _ _ _ z _ => none_conj z
        · exact fun h => absurd h id)
  refine ⟨n', E, h2, h3, h4 ?_⟩
  cases h1 with
  | cons a t =>
    cases t
    rw [exConvNet_sample (f := .none) .meanSquare (y := 1) rfl (none_deriv _) (none_conj _)] at a
    cases a
    refine ⟨_, List.mem_cons_self, _, List.mem_append_left _ List.mem_cons_self, ?_⟩
    rw [sub_zero, conj_one, mul_one, mul_one]
    show (0 : Cf w ℝ) + 1 ≠ 0
    rw [zero_add]
    exact one_ne_zero

end Renplex
