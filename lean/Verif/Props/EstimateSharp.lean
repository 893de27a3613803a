import Verif.Lemmas.EstimateSharp
/-!
# C93: the certificates exist
-/

namespace Renplex

open Filter Topology Relate Rounding

section
variable {ι : Type} {l : Filter ι} {u δ : ι → ℝ} {w : Width}

theorem tightM_of (hδ : Tendsto δ l (𝓝 0)) (h0 : ∀ k, 0 ≤ δ k) (z : Cf w ℝ) :
    TightM l (fun k => Mon.of (u k) (δ k) z) z :=
  ⟨⟨δ, hδ, .of_forall fun k => ⟨h0 k, rfl⟩⟩, δ, hδ, .of_forall fun k => ⟨h0 k, rfl⟩⟩

theorem TightM.within {ε : ℝ} (hε : 0 < ε) {a : ∀ k, Mon w (u k)} {z : Cf w ℝ} (h : TightM l a z) :
    ∀ᶠ k in l, (a k).Within ε := by
  obtain ⟨⟨e, h1, h2⟩, f, h3, h4⟩ := h
  filter_upwards [h2, h4, h1.eventually_lt_const hε, h3.eventually_lt_const hε] with k h2 h4 h5 h6
  exact ⟨⟨e k, by rw [h2.2], h5.le⟩, f k, by rw [h4.2], h6.le⟩

theorem RL_monitor {A : ι → Type} {B : Type} {S : (∀ k, A k) → B → Prop} {g : ∀ k, B → A k} (v : List B)
    (h : ∀ b ∈ v, S (fun k => g k b) b) : RL l S (fun k => v.map (g k)) v := by
  refine RL.point (R := fun k a b => a = g k b)
    (fun k => List.forall₂_map_left_iff.mpr (List.forall₂_same.mpr fun _ _ => rfl)) fun a b hb e => ?_
  rw [show a = fun k => g k b from funext e]
  exact h b hb

theorem RM_monitor (hδ : Tendsto δ l (𝓝 0)) (h0 : ∀ k, 0 ≤ δ k) (m : Mat (Cf w ℝ)) :
    RM l (TightM l) (fun k => m.monitor (u k) (δ k)) m :=
  ⟨_, RL_monitor m.body fun z _ => tightM_of hδ h0 z, .of_forall fun _ => rfl⟩

theorem RIO_monitor (hδ : Tendsto δ l (𝓝 0)) (h0 : ∀ k, 0 ≤ δ k) (x : IOType (Cf w ℝ)) :
    RIO l (TightM l) (fun k => x.monitor (u k) (δ k)) x := by
  cases x with
  | scalar v => exact ⟨_, RL_monitor v fun z _ => tightM_of hδ h0 z, .of_forall fun _ => rfl⟩
  | matrix v => exact ⟨_, RL_monitor v fun z _ => RM_monitor hδ h0 z, .of_forall fun _ => rfl⟩

theorem RData_monitor (hδ : Tendsto δ l (𝓝 0)) (h0 : ∀ k, 0 ≤ δ k) (D : Dataset (Cf w ℝ)) :
    RData l (TightM l) (fun k => D.monitor (u k) (δ k)) D :=
  ⟨RL_monitor _ fun x _ => RIO_monitor hδ h0 x, RL_monitor _ fun x _ => RIO_monitor hδ h0 x⟩

theorem mean_tight (hF : Fine l u) {f : ∀ k, List (Mon w (u k))} {v : List (Cf w ℝ)}
    (h : RL l (TightM l) f v) : RO l (TightM l) (fun k => Mon.mean (f k)) (meanBlock v) := by
  have hz := RL_z h
  have h1 := hz.foldl (T := TightC l) (g := fun k a b => Cf.add a b) (b := Cf.default) (a := fun k => Cf.default)
    ⟨tight_zero hF, tight_zero hF⟩ (fun _ _ _ _ ha h => ha.add hF h) tightC_ev
  refine RO_mk (RO.congr (hz.len.mono fun k e => ?_) (h1.div hF (b := fun k => Cf.new (Scalar.ofNat v.length)
    Scalar.zero) ⟨tight_ofNat hF v.length, tight_zero hF⟩))
  rw [meanBlock, e]

theorem RNet_monitor (hF : Fine l u) (hδ : Tendsto δ l (𝓝 0)) (h0 : ∀ k, 0 ≤ δ k) {n : Net (Cf w ℝ)}
    (hp : n.MeanPools) : RNet l (TightM l) (fun k => n.monitor (u k) (δ k)) n := by
  refine RL_monitor (g := fun k => Layer.monitor (u k) (δ k)) n.layers fun d hd => ?_
  have hb : ∀ v : List (Cf w ℝ), RL l (TightM l) (fun k => v.map (Mon.of (u k) (δ k))) v := fun v =>
    RL_monitor v fun z _ => tightM_of hδ h0 z
  cases d with
  | dense d => exact ⟨_, _, RM_monitor hδ h0 _, hb _, .of_forall fun _ => rfl⟩
  | conv d =>
    exact ⟨_, _, ⟨_, RL_monitor d.kernels.body fun m _ => RM_monitor hδ h0 m, .of_forall fun _ => rfl⟩, hb _,
      .of_forall fun _ => rfl⟩
  | reduce d =>
    refine ⟨fun _ => Mon.mean, _, RM_monitor hδ h0 _, fun f v hv => ?_, .of_forall fun _ => rfl⟩
    rw [hp d hd]
    exact mean_tight hF hv
  | flatten d => exact .of_forall fun _ => rfl

theorem RL_all {A : ι → Type} {B : Type} {S : (∀ k, A k) → B → Prop} {P : ∀ k, A k → Prop} {f : ∀ k, List (A k)}
    {v : List B} (h : RL l S f v) (hP : ∀ a b, S a b → ∀ᶠ k in l, P k (a k)) : ∀ᶠ k in l, ∀ a ∈ f k, P k a := by
  have := RL.eventually (R := fun k a _ => P k a) h hP
  filter_upwards [this] with k hk a ha
  clear this h
  generalize f k = g at hk ha
  induction hk with
  | nil => cases ha
  | cons h _ ih =>
    rcases List.mem_cons.mp ha with rfl | ha
    · exact h
    · exact ih ha

theorem RM_all {ε : ℝ} (hε : 0 < ε) {m : ∀ k, Mat (Mon w (u k))} {m' : Mat (Cf w ℝ)} (h : RM l (TightM l) m m') :
    ∀ᶠ k in l, ∀ a ∈ (m k).body, a.Within ε := RL_all h.body fun _ _ => TightM.within hε

theorem RIO_bounded {ε : ℝ} (hε : 0 < ε) {x : ∀ k, IOType (Mon w (u k))} {x' : IOType (Cf w ℝ)}
    (h : RIO l (TightM l) x x') : ∀ᶠ k in l, (x k).Bounded ε := by
  cases x' with
  | scalar v =>
    obtain ⟨f, h1, h2⟩ := h
    filter_upwards [RL_all h1 fun _ _ => TightM.within hε, h2] with k h e
    rw [e]
    exact h
  | matrix v =>
    obtain ⟨f, h1, h2⟩ := h
    filter_upwards [RL_all (P := fun k (m : Mat (Mon w (u k))) => ∀ a ∈ m.body, a.Within ε) h1
      fun _ _ => RM_all hε, h2] with k h e
    rw [e]
    exact h

theorem RNet_bounded {ε : ℝ} (hε : 0 < ε) {n : ∀ k, Net (Mon w (u k))} {n' : Net (Cf w ℝ)}
    (h : RNet l (TightM l) n n') : ∀ᶠ k in l, (n k).Bounded ε := by
  refine RL_all (P := fun k (d : Layer (Mon w (u k))) => d.Bounded ε) h fun L d h => ?_
  cases d with
  | dense d =>
    obtain ⟨m, b, h1, h2, h3⟩ := h
    filter_upwards [RM_all hε h1, RL_all h2 fun _ _ => TightM.within hε, h3] with k h1 h2 e
    rw [e]
    exact ⟨h1, h2⟩
  | conv d =>
    obtain ⟨m, b, h1, h2, h3⟩ := h
    filter_upwards [RL_all (P := fun k (m : Mat (Mon w (u k))) => ∀ a ∈ m.body, a.Within ε) h1.body
      fun _ _ => RM_all hε, RL_all h2 fun _ _ => TightM.within hε, h3] with k h1 h2 e
    rw [e]
    exact ⟨h1, h2⟩
  | reduce d =>
    obtain ⟨g, m, h1, -, h3⟩ := h
    filter_upwards [RM_all hε h1, h3] with k h1 e
    rw [e]
    exact h1
  | flatten d =>
    filter_upwards [h] with k e
    rw [e]
    trivial

end

/-! ## Bounds -/

section eps
variable {w : Width}

/-- If the claim fails for all `ρ` it fails along a sequence. -/
theorem bad_pair {P : ℝ → ℝ → Prop} (h : ¬ ∃ ρ > 0, ∀ u δ, 0 ≤ u → u ≤ ρ → 0 ≤ δ → δ ≤ ρ → P u δ) :
    ∃ u δ : ℕ → ℝ, Fine atTop u ∧ (∀ k, 0 ≤ δ k) ∧ Tendsto δ atTop (𝓝 0) ∧ ∀ k, ¬ P (u k) (δ k) := by
  have h' : ∀ k : ℕ, ∃ u δ : ℝ, 0 ≤ u ∧ u ≤ 1 / ((k : ℝ) + 1) ∧ 0 ≤ δ ∧ δ ≤ 1 / ((k : ℝ) + 1) ∧ ¬ P u δ := by
    intro k
    by_contra hc
    refine h ⟨1 / ((k : ℝ) + 1), by positivity, fun u δ h1 h2 h3 h4 => ?_⟩
    by_contra h5
    exact hc ⟨u, δ, h1, h2, h3, h4, h5⟩
  choose u δ h1 h2 h3 h4 h5 using h'
  exact ⟨u, δ, ⟨h1, squeeze_zero h1 h2 tendsto_inv⟩, h3, squeeze_zero h3 h4 tendsto_inv, h5⟩

/-- C93. Certificates for predictions exist: where no activation jumps, monitoring returns bounds that are as
small as wanted if precision and starting errors are small enough. -/
theorem C93_forward_sharp {n : Net (Cf w ℝ)} (hp : n.MeanPools) {x y : IOType (Cf w ℝ)}
    (hs : PreChain Steady n.layers x) (h : n.forward x = some (.ok y)) {ε : ℝ} (hε : 0 < ε) :
    ∃ ρ > 0, ∀ u δ, 0 ≤ u → u ≤ ρ → 0 ≤ δ → δ ≤ ρ →
      ∃ r, (n.monitor u δ).forward (x.monitor u δ) = some (.ok r) ∧ r.Bounded ε := by
  by_contra hc
  obtain ⟨u, δ, hF, h0, hδ, hbad⟩ := bad_pair hc
  obtain ⟨r, h1, h2⟩ := net_forward (monRel hF) tightM_ev (RNet_monitor hF hδ h0 hp) (RIO_monitor hδ h0 x)
    (hs.mono fun f z => TightM.activate hF f) _ h
  obtain ⟨y, h3, h4⟩ := h1.1 _ rfl
  obtain ⟨k, h5, h6, h7⟩ := (h2.and (h4.and (RIO_bounded hε h3))).exists
  exact hbad k ⟨y k, Eq.trans h5 (congrArg some h6), h7⟩

/-- C93. Certificates for the loss exist. -/
theorem C93_loss_sharp {n : Net (Cf w ℝ)} (hp : n.MeanPools) {D : Dataset (Cf w ℝ)} {f : LossFunc}
    (hs : ∀ p ∈ D.points, PreChain Steady n.layers p.1)
    (ho : ∀ p ∈ D.points, ∀ y, n.forward p.1 = some (.ok y) → LossOk f p.2 y) {v : ℝ}
    (h : n.loss D f = some v) {ε : ℝ} (hε : 0 < ε) :
    ∃ ρ > 0, ∀ u δ, 0 ≤ u → u ≤ ρ → 0 ≤ δ → δ ≤ ρ →
      ∃ e ≤ ε, (n.monitor u δ).loss (D.monitor u δ) f = some ⟨v, some e⟩ := by
  by_contra hc
  obtain ⟨u, δ, hF, h0, hδ, hbad⟩ := bad_pair hc
  obtain ⟨a, ⟨e, h1, h2⟩, h3⟩ := loss_rel (monRel hF) tightM_ev (monLoss hF) (RNet_monitor hF hδ h0 hp)
    (RData_monitor hδ h0 D) f (fun p hp => (hs p hp).mono fun f z => TightM.activate hF f) ho v h
  obtain ⟨k, h4, h5, h6⟩ := (h3.and (h2.and (h1.eventually_lt_const hε))).exists
  exact hbad k ⟨e k, h6.le, Eq.trans h4 (congrArg some h5.2)⟩

theorem gradientOpt_tight {ι : Type} {l : Filter ι} {u : ι → ℝ} (hF : Fine l u) {n : ∀ k, Net (Mon w (u k))}
    {n' : Net (Cf w ℝ)} (hn : RNet l (TightM l) n n') {D : ∀ k, Dataset (Mon w (u k))} {D' : Dataset (Cf w ℝ)}
    (hD : RData l (TightM l) D D') (f : LossFunc) {a : ∀ k, Mon w (u k)} {b : Cf w ℝ} (ha : TightM l a b)
    (hs : ∀ p ∈ D'.points, SteadyAt n' p.1) {r : Except ForwardErr Unit} {m' : Net (Cf w ℝ)}
    (h : n'.gradientOpt D' f b = some (r, m')) : ∃ m : ∀ k, Net (Mon w (u k)), RNet l (TightM l) m m'
      ∧ ∀ᶠ k in l, (n k).gradientOpt (D k) f (a k) = some (r, m k) := by
  obtain ⟨q, h1, h2⟩ := gradientOpt_rel (monRel hF) tightM_ev hn hD f ha
    (fun p hp => (hs p hp).1.mono fun f z => TightM.activate hF f)
    (fun p hp => (hs p hp).2.mono fun f z => TightM.derivative hF f) _ h
  refine ⟨fun k => (q k).2, h1.2, ?_⟩
  have h3 : ∀ᶠ k in l, (q k).1 = r := by
    cases r with
    | ok u =>
      obtain ⟨a, h3, h4⟩ := h1.1.1 _ rfl
      exact h4.mono fun k e => e
    | error e => exact h1.1.2 _ rfl
  filter_upwards [h2, h3] with k e e'
  rw [e, ← e']

theorem train_tight {ι : Type} {l : Filter ι} {u δ : ι → ℝ} (hF : Fine l u) (hδ : Tendsto δ l (𝓝 0))
    (h0 : ∀ k, 0 ≤ δ k) {s : List (TrainStep (Cf w ℝ))} {n : ∀ k, Net (Mon w (u k))} {n' : Net (Cf w ℝ)}
    (hn : RNet l (TightM l) n n') (hst : SteadyRun n' s) {m' : Net (Cf w ℝ)} (h : n'.train s = some m') :
    ∃ m : ∀ k, Net (Mon w (u k)), RNet l (TightM l) m m'
      ∧ ∀ᶠ k in l, (n k).train (monitorSteps (u k) (δ k) s) = some (m k) := by
  induction s generalizing n n' with
  | nil => cases h; exact ⟨n, hn, .of_forall fun _ => rfl⟩
  | cons t s ih =>
    obtain ⟨p, h1, h2⟩ := Option.bind_eq_some_iff.mp h
    obtain ⟨⟨r, p⟩, h3, rfl⟩ := Option.map_eq_some_iff.mp h1
    obtain ⟨q, h4, h5⟩ := gradientOpt_tight hF hn (RData_monitor hδ h0 t.1) t.2.1 (tightM_of hδ h0 t.2.2) hst.1 h3
    obtain ⟨m, h6, h7⟩ := ih h4 (hst.2 _ h3) h2
    refine ⟨m, h6, ?_⟩
    filter_upwards [h5, h7] with k e e'
    rw [monitorSteps, List.map_cons, Net.train, List.foldlM_cons, e]
    exact e'

/-- C93. Certificates for training exist. -/
theorem C93_run_sharp {n m : Net (Cf w ℝ)} (hp : n.MeanPools) {s : List (TrainStep (Cf w ℝ))}
    (hs : SteadyRun n s) (h : n.train s = some m) {ε : ℝ} (hε : 0 < ε) :
    ∃ ρ > 0, ∀ u δ, 0 ≤ u → u ≤ ρ → 0 ≤ δ → δ ≤ ρ →
      ∃ r, (n.monitor u δ).train (monitorSteps u δ s) = some r ∧ r.Bounded ε := by
  by_contra hc
  obtain ⟨u, δ, hF, h0, hδ, hbad⟩ := bad_pair hc
  obtain ⟨r, h1, h2⟩ := train_tight hF hδ h0 (RNet_monitor hF hδ h0 hp) hs h
  obtain ⟨k, h3, h4⟩ := (h2.and (RNet_bounded hε h1)).exists
  exact hbad k ⟨r k, h3, h4⟩

/-- C93. In `f32` and `f64` with accurate library functions: a certificate for training bounds the distance
between the network that is left behind in floating point and the exact one. -/
theorem C93_ieee {B : Binary} {L : Libm B} (hL : L.Accurate) {δ ε : ℝ} {n : Net (Cf w (Fl L))} {n' : Net (Cf w ℝ)}
    (hn : Net.Within (F := L.format) δ n n') (hp : n.MeanPools) (hp' : n'.MeanPools)
    {s : List (TrainStep (Cf w (Fl L)))} {s' : List (TrainStep (Cf w ℝ))}
    (hs : stepsWithin (F := L.format) δ s s') {r : Net (Mon w L.format.u)}
    (h : (n'.monitor L.format.u δ).train (monitorSteps L.format.u δ s') = some r) (hr : r.Bounded ε) :
    ∃ m m', n.train s = some m ∧ n'.train s' = some m' ∧ Net.Within (F := L.format) ε m m' :=
  C93_run_cert (F := L.format) (C84_sound hL) hn hp hp' hs h hr

/-- C93. Monitoring is needed: it gives up where the exact run does not, at the jump of `zReLU`. -/
theorem C93_gives_up {u δ : ℝ} (hδ : 0 ≤ δ) (z : Cf w ℝ) (hz : z.x = 0) :
    CplxOps.activate .zReLU (Mon.of u δ z) = none ∧ ∃ y, Act.activate .zReLU z = some y := by
  refine ⟨?_, _, rfl⟩
  classical
  have : ¬ Mon.Sure .zReLU (Mon.of u δ z).z := by
    rintro ⟨⟨e, he, h⟩, -⟩
    cases he
    have h : δ < |z.x| := h
    rw [hz, abs_zero] at h
    exact absurd h (not_lt.mpr hδ)
  exact if_neg this

end eps

/-! ## Non-vacuity -/

/-- A network with a bounded activation: for a format that rounds, a training call is certified. -/
example (lf : LossFunc) (x t r : Cf .w32 ℝ) {m' : Net (Cf .w32 ℝ)}
    (h : (exActNet .ritTanh).train [(⟨[.scalar [x]], [.scalar [t]]⟩, lf, r)] = some m') :
    ∃ F : Format, F.Sound ∧ 0 < F.u ∧ ∃ δ > 0, ∃ q,
      ((exActNet .ritTanh).monitor F.u δ).train (monitorSteps F.u δ [(⟨[.scalar [x]], [.scalar [t]]⟩, lf, r)]) = some q
        ∧ q.Bounded (1 / 1000) := by
  have hd : ∀ d ∈ (exActNet .ritTanh : Net (Cf .w32 ℝ)).layers, (∃ e, d = .dense e)
      ∧ (d.act = .none ∨ d.act = .ritTanh) := by
    intro d hd
    simp only [exActNet, List.mem_cons, List.not_mem_nil, or_false] at hd
    rcases hd with rfl | rfl
    · exact ⟨⟨_, rfl⟩, .inr rfl⟩
    · exact ⟨⟨_, rfl⟩, .inl rfl⟩
  obtain ⟨ρ, hρ, h1⟩ := C93_run_sharp (exActNet_pools fun d h => (hd d h).1)
    (Net.Smooth.run (fun d h => (hd d h).2) _) h (ε := 1 / 1000) (by norm_num)
  obtain ⟨N, hN⟩ := exists_nat_one_div_lt hρ
  have hu : (Format.fixed (N + 1)).u = 1 / ((N : ℝ) + 1) := by simp [Format.fixed, Format.ofRound]
  refine ⟨Format.fixed (N + 1), Format.fixed_sound (Nat.succ_pos N), by rw [hu]; positivity, ρ, hρ, ?_⟩
  exact h1 _ _ (by rw [hu]; positivity) (by rw [hu]; exact hN.le) hρ.le le_rfl

end Renplex
