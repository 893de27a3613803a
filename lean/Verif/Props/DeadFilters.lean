import Verif.Spec.DeadFilters
import Verif.Props.Channels
import Verif.Props.Dead
/-!
# C117: filters that no longer learn
-/

namespace Renplex

/-! ## A layer in the middle of a network -/

section mid
variable {α P : Type} [CplxOps α P]

theorem backPairs_mid {pre post : List (Layer α)} {l : Layer α} {x prev y : IOType α}
    {ys ws : List (IOType α)} (h1 : Chain pre x ys) (hp : (x :: ys).getLast? = some prev)
    (h2 : Chain post y ws) :
    backPairs (pre ++ l :: post) x (ys ++ y :: ws) = backPairs post y ws ++ (prev, l) :: backPairs pre x ys := by
  induction h1 with
  | nil x =>
    cases hp
    rw [List.nil_append, List.nil_append, backPairs_cons _ _ _ _ _ h2.length]
    rfl
  | @cons l0 pre x z ys h t ih =>
    rw [List.getLast?_cons_cons] at hp
    have hlen : (ys ++ y :: ws).length = (pre ++ l :: post).length := by
      simp [t.length, h2.length]
    rw [List.cons_append, List.cons_append, backPairs_cons _ _ _ _ _ hlen, ih hp,
      backPairs_cons _ _ _ _ _ t.length]
    simp

theorem Chain.append_mid {pre post : List (Layer α)} {l : Layer α} {x prev y : IOType α}
    {ys ws : List (IOType α)} (h1 : Chain pre x ys) (hp : (x :: ys).getLast? = some prev)
    (hl : l.forward prev = some (.ok y)) (h2 : Chain post y ws) :
    Chain (pre ++ l :: post) x (ys ++ y :: ws) := by
  induction h1 with
  | nil x => cases hp; exact .cons hl h2
  | cons h t ih =>
    rw [List.getLast?_cons_cons] at hp
    exact .cons h (ih hp)

/-- The contribution of a sample to a layer anywhere in the network, and to the layers before it. -/
theorem mid_sample {n : Net α} {s s' : Size} (hr : n.Ready s s') {pre post : List (Layer α)} {l : Layer α}
    (hn : n.layers = pre ++ l :: post) {lf : LossFunc}
    (hd : ∀ t p : IOType α, t.HasSize s' → p.HasSize s' →
      ∃ d, CplxOps.dLoss lf t p = .ok d ∧ d.length = s'.len)
    {x t : IOType α} (hx : x.HasSize s) (ht : t.HasSize s') :
    ∃ (s₁ s₂ : Size) (ys : List (IOType α)) (prev : IOType α) (e ec : List α) (g : LayerVec α)
      (r : List α × List α) (A B : List (LayerVec α)),
      FitsChain pre s s₁ ∧ l.Fits s₁ s₂ ∧ Chain pre x ys ∧ (x :: ys).getLast? = some prev
      ∧ prev.HasSize s₁ ∧ e.length = s₂.len ∧ ec.length = s₂.len ∧ l.back prev e ec = some (g, r)
      ∧ backGrads (backPairs pre x ys) r.1 r.2 = some A ∧ A.length = pre.length
      ∧ sampleGrads n lf (x, t) = some (A.reverse ++ g :: B) := by
  obtain ⟨-, hw, hfit, htot, hback⟩ := hr
  rw [hn] at hw hfit htot hback
  obtain ⟨s₁, f1, f2⟩ := hfit.split
  cases f2 with
  | @cons _ _ _ s₂ _ f2 f3 =>
    obtain ⟨ks, -, -, hc⟩ := Corr.of_fits f1 (fun l hl => hw l (by simp [hl])) (fun l hl => htot l (by simp [hl]))
      (fun l hl => hback l (by simp [hl]))
    obtain ⟨ys, ys', prev, prev', c1, -, c3, -, ⟨-, c5⟩, c6⟩ := hc.pass (x := x) (x' := x) ⟨rfl, hx⟩
    obtain ⟨y, y1, y2⟩ := Layer.forward_fits (hw l (by simp)) (htot l (by simp)) f2 c5
    obtain ⟨ks', -, -, hc'⟩ := Corr.of_fits f3 (fun l hl => hw l (by simp [hl]))
      (fun l hl => htot l (by simp [hl])) (fun l hl => hback l (by simp [hl]))
    obtain ⟨ws, ws', z, z', k1, -, k3, -, ⟨-, k5⟩, k6⟩ := hc'.pass (x := y) (x' := y) ⟨rfl, y2⟩
    obtain ⟨d, d1, d2⟩ := hd t _ ht k5
    obtain ⟨gs, gs', e, e', ec, ec', ⟨-, b1⟩, ⟨-, b2⟩, -, b4, -⟩ := k6 d d (d.map CplxOps.conj)
      (d.map CplxOps.conj) ⟨rfl, d2⟩ ⟨rfl, by simpa using d2⟩
    obtain ⟨g, i, ic, a1, -, a3, a4⟩ := Layer.back_fits (hw l (by simp)) (hback l (by simp)) f2 c5 _ _ b1 b2
    obtain ⟨G, G', u, u', uc, uc', -, -, v3, v4, -⟩ := c6 i i ic ic ⟨rfl, a3⟩ ⟨rfl, a4⟩
    have v4 := v4 []
    rw [List.append_nil] at v4
    have v5 : backGrads (backPairs pre x ys) i ic = some G.reverse := by
      rw [v4]; simp [backGrads]
    refine ⟨s₁, s₂, ys, prev, e, ec, g, (i, ic), G.reverse, gs, f1, f2, c1, c3, c5, b1, b2, a1, v5, ?_, ?_⟩
    · rw [List.length_reverse, v3.fits.1.length_eq]
    · unfold sampleGrads
      rw [(C44_collect n (by rw [hn]; simp) x _).mpr ⟨ys ++ y :: ws, by rw [hn]; exact c1.append_mid c3 y1 k1, rfl⟩]
      simp only [Option.bind_eq_bind, Option.bind_some, unwrap]
      rw [List.head?_reverse, ← List.cons_append, List.getLast?_append_of_ne_nil _ (by simp), k3]
      simp only [Option.bind_some, d1]
      change Option.map _ (backGrads (backPairs n.layers x (ys ++ y :: ws)) d (d.map CplxOps.conj)) = _
      rw [hn, backPairs_mid c1 c3 k1, b4, backGrads_cons, a1]
      simp only [Option.bind_eq_bind, Option.bind_some, v5]
      simp

end mid

variable {w : Width}

/-! ## One convolutional layer -/

theorem MapsAre.same_dims {ms : List (Mat (Cf w ℝ))} {m r c r' c' : Nat} {X : Nat → Nat → Nat → Cf w ℝ}
    (h : MapsAre ms m r c X) (hm : 0 < m) (h' : (IOType.matrix ms).HasSize (.maps m r' c')) :
    r' = r ∧ c' = c := by
  obtain ⟨h1, h2⟩ := h
  have hlt : 0 < ms.length := by omega
  have e1 := (h2 0 _ (List.getElem?_eq_getElem hlt)).1
  have e2 := (h'.2 _ (List.getElem_mem hlt)).2
  rw [e1, Prod.mk.injEq] at e2
  exact ⟨e2.1.symm, e2.2.symm⟩

theorem MapsAre.entry {ms : List (Mat (Cf w ℝ))} {m r c : Nat} {X X' : Nat → Nat → Nat → Cf w ℝ}
    (h : MapsAre ms m r c X) (h' : MapsAre ms m r c X') {ch i j : Nat} (hch : ch < m) (hi : i < r)
    (hj : j < c) : X ch i j = X' ch i j := by
  have hlt : ch < ms.length := by rw [h.1]; exact hch
  have k1 := (h.2 ch _ (List.getElem?_eq_getElem hlt)).2
  have k2 := (h'.2 ch _ (List.getElem?_eq_getElem hlt)).2
  have k3 := congrArg (fun z => z[i * c + j]?) (k1.symm.trans k2)
  simp only [table_getElem? _ _ _ hi hj] at k3
  exact Option.some.inj k3

/-- What a convolutional layer contributes: nothing from the places where the activation is flat. -/
theorem Conv.back_inv {l : Conv (Cf w ℝ)} {nf m p q r c : Nat} {K : Nat → Nat → Nat → Nat → Cf w ℝ}
    {b : Nat → Cf w ℝ} {f : ActFunc} (h : l.Is nf m p q K b f) (hb : (Layer.conv l).TotalBack)
    (hf : 0 < nf) (hm : 0 < m) (hp : 1 ≤ p) (hpr : p ≤ r) (hq : 1 ≤ q) (hqc : q ≤ c)
    {ms : List (Mat (Cf w ℝ))} {X : Nat → Nat → Nat → Cf w ℝ} (hX : MapsAre ms m r c X)
    {e ec : List (Cf w ℝ)} (he : e.length = (Size.maps nf (r - p + 1) (c - q + 1)).len)
    (hec : ec.length = (Size.maps nf (r - p + 1) (c - q + 1)).len) {g : LayerVec (Cf w ℝ)}
    {z : List (Cf w ℝ) × List (Cf w ℝ)} (hz : (Layer.conv l).back (.matrix ms) e ec = some (g, z)) :
    ∃ M N : Nat → Nat → Nat → Cf w ℝ,
      g = (kvec nf m p q fun o ch => kernelGrad (r - p + 1) (c - q + 1) (X ch) fun i j => M o i j + N o i j,
        (List.range nf).map fun o => ∑ i ∈ Finset.range (r - p + 1), ∑ j ∈ Finset.range (c - q + 1),
          (M o i j + N o i j))
      ∧ z.1 = (cube m r c fun ch i j => ∑ o ∈ Finset.range nf,
        inputGrad (r - p + 1) (c - q + 1) p q (M o) (K o ch) i j)
      ∧ z.2 = (cube m r c fun ch i j => ∑ o ∈ Finset.range nf,
        inputGrad (r - p + 1) (c - q + 1) p q (N o) (K o ch) i j)
      ∧ ∀ o i j, f.Flat (convPre m p q X K b o i j) → M o i j = 0 ∧ N o i j = 0 := by
  have : Nonempty (Cf w ℝ) := ⟨0⟩
  obtain ⟨hD, hDC⟩ := hb
  rw [h.2.2.1] at hD hDC
  choose D hD using hD
  choose DC hDC using hDC
  obtain ⟨E, rfl⟩ := exists_cube _ _ _ _ he
  obtain ⟨EC, rfl⟩ := exists_cube _ _ _ _ hec
  rw [Conv.back_is h hf hm hp hpr hq hqc hX E EC D DC hD hDC] at hz
  cases hz
  refine ⟨_, _, rfl, rfl, rfl, fun o i j hfl => ?_⟩
  have e1 : D (convPre m p q X K b o i j) = 0 := Option.some.inj ((hD _).symm.trans hfl.1)
  have e2 : DC (convPre m p q X K b o i j) = 0 := Option.some.inj ((hDC _).symm.trans hfl.2)
  exact ⟨by rw [e1, zero_mul], by rw [e2, conj_zero', zero_mul]⟩

/-- Derivatives for a convolutional layer that are zero for the filters in `S`. -/
def ZeroFor (nf m p q : Nat) (S : Nat → Prop) (g : LayerVec (Cf w ℝ)) : Prop :=
  ∃ (D : Nat → Nat → Nat → Nat → Cf w ℝ) (e : Nat → Cf w ℝ),
    g = (kvec nf m p q D, (List.range nf).map e)
      ∧ ∀ o, S o → e o = 0 ∧ ∀ ch x y, D o ch x y = 0

theorem ZeroFor.add {nf m p q : Nat} {S : Nat → Prop} {g g' : LayerVec (Cf w ℝ)}
    (h : ZeroFor nf m p q S g) (h' : ZeroFor nf m p q S g') : ZeroFor nf m p q S (g.add g') := by
  obtain ⟨D, e, rfl, h1⟩ := h
  obtain ⟨D', e', rfl, h2⟩ := h'
  refine ⟨fun o ch x y => D o ch x y + D' o ch x y, fun o => e o + e' o, ?_, fun o ho => ⟨?_, ?_⟩⟩
  · simp only [LayerVec.add, kvec_zipWith, List.zipWith_map, List.zipWith_self]
  · show e o + e' o = 0
    rw [(h1 o ho).1, (h2 o ho).1, add_zero]
  · intro ch x y
    show D o ch x y + D' o ch x y = 0
    rw [(h1 o ho).2, (h2 o ho).2, add_zero]

theorem cube_allZ {n r c : Nat} {F : Nat → Nat → Nat → Cf w ℝ}
    (h : ∀ o, o < n → ∀ i, i < r → ∀ j, j < c → F o i j = 0) : AllZ (cube n r c F) := by
  intro x hx
  obtain ⟨o, ho, hx⟩ := List.mem_flatMap.mp hx
  exact table_allZ (h o (List.mem_range.mp ho)) x hx

theorem inputGrad_dead {R C p q : Nat} {M K : Nat → Nat → Cf w ℝ}
    (h : ∀ i, i < R → ∀ j, j < C → M i j = 0) (i j : Nat) : inputGrad R C p q M K i j = 0 := by
  refine Finset.sum_eq_zero fun a _ => Finset.sum_eq_zero fun b _ => ?_
  have : padded R C (p - 1) (q - 1) M (i + a) (j + b) = 0 := by
    unfold padded
    split
    · next h0 => exact h _ (by omega) _ (by omega)
    · exact LawfulOps.zero_eq
  rw [this, zero_mul]

/-- The contribution of a sample to filters that are dead on it. -/
theorem dead_filter {n : Net (Cf w ℝ)} {s s' : Size} (hr : n.Ready s s') {pre post : List (Layer (Cf w ℝ))}
    {l : Conv (Cf w ℝ)} {nf m p q r c : Nat} {K : Nat → Nat → Nat → Nat → Cf w ℝ} {b : Nat → Cf w ℝ}
    {f : ActFunc} (hn : n.layers = pre ++ .conv l :: post) (hl : l.Is nf m p q K b f) {lf : LossFunc}
    {x t : IOType (Cf w ℝ)} (hx : x.HasSize s) (ht : t.HasSize s') {S : Nat → Prop} (hS : ∃ o, S o)
    (hd : ∀ o, S o → FilterDeadOn pre m p q r c K b f o x) {gs : List (LayerVec (Cf w ℝ))}
    (h : sampleGrads n lf (x, t) = some gs) :
    (∀ g, gs[pre.length]? = some g → ZeroFor nf m p q S g)
      ∧ ((∀ o, o < nf → S o) → ∀ k, k ≤ pre.length → ∀ g, gs[k]? = some g → AllZ g.1 ∧ AllZ g.2) := by
  obtain ⟨s₁, s₂, ys, prev, e, ec, g0, z, A, B, -, f2, c1, c2, c3, he, hec, hbk, hA, hA', hs⟩ :=
    mid_sample hr hn (dLoss_total lf) hx ht
  rw [h] at hs
  obtain rfl := Option.some.inj hs
  obtain ⟨r', c', rfl, rfl, hf, hm, hp, hpr, hq, hqc⟩ := (Conv.fits_dims hl).mp f2
  obtain ⟨o0, ho0⟩ := hS
  obtain ⟨ms, X, d1, d2, -⟩ := hd o0 ho0 ys c1
  rw [c2] at d1
  cases d1
  obtain ⟨rfl, rfl⟩ := d2.same_dims hm c3
  obtain ⟨M, N, rfl, z1, z2, hfl⟩ := Conv.back_inv hl (hr.totalBack (.conv l) (by rw [hn]; simp)) hf hm hp hpr
    hq hqc d2 he hec hbk
  have h0 : ∀ o, S o → ∀ i, i < r' - p + 1 → ∀ j, j < c' - q + 1 → M o i j = 0 ∧ N o i j = 0 := by
    intro o ho i hi j hj
    obtain ⟨ms', X', e1, e2, e3⟩ := hd o ho ys c1
    rw [c2] at e1
    cases e1
    refine hfl o i j ?_
    have := e3 i hi j hj
    rw [convPre_sum]
    convert this using 2
    refine Finset.sum_congr rfl fun ch hch => Finset.sum_congr rfl fun x hx =>
      Finset.sum_congr rfl fun y hy => ?_
    rw [Finset.mem_range] at hch hx hy
    rw [d2.entry e2 hch (by omega) (by omega)]
  have hk : ∀ o, S o → ∀ ch x y, kernelGrad (r' - p + 1) (c' - q + 1) (X ch)
      (fun i j => M o i j + N o i j) x y = 0 := by
    intro o ho ch x y
    refine Finset.sum_eq_zero fun i hi => Finset.sum_eq_zero fun j hj => ?_
    obtain ⟨a1, a2⟩ := h0 o ho i (Finset.mem_range.mp hi) j (Finset.mem_range.mp hj)
    simp only [a1, a2, add_zero, mul_zero]
  have hb0 : ∀ o, S o → ∑ i ∈ Finset.range (r' - p + 1), ∑ j ∈ Finset.range (c' - q + 1),
      (M o i j + N o i j) = 0 := by
    intro o ho
    refine Finset.sum_eq_zero fun i hi => Finset.sum_eq_zero fun j hj => ?_
    obtain ⟨a1, a2⟩ := h0 o ho i (Finset.mem_range.mp hi) j (Finset.mem_range.mp hj)
    rw [a1, a2, add_zero]
  constructor
  · intro g hg
    rw [List.getElem?_append_right (by simp [hA']), List.length_reverse, hA', Nat.sub_self] at hg
    cases hg
    exact ⟨_, _, rfl, fun o ho => ⟨hb0 o ho, hk o ho⟩⟩
  · intro hall k hk' g hg
    have w1 : AllZ z.1 := by
      rw [z1]
      refine cube_allZ fun ch _ i _ j _ => Finset.sum_eq_zero fun o ho => ?_
      exact inputGrad_dead (fun i hi j hj => (h0 o (hall o (Finset.mem_range.mp ho)) i hi j hj).1) i j
    have w2 : AllZ z.2 := by
      rw [z2]
      refine cube_allZ fun ch _ i _ j _ => Finset.sum_eq_zero fun o ho => ?_
      exact inputGrad_dead (fun i hi j hj => (h0 o (hall o (Finset.mem_range.mp ho)) i hi j hj).2) i j
    rcases Nat.lt_or_ge k pre.length with hlt | hge
    · rw [List.getElem?_append_left (by simp [hA', hlt])] at hg
      exact backGrads_zero w1 w2 hA g (List.mem_reverse.mp (List.mem_of_getElem? hg))
    · obtain rfl : k = pre.length := by omega
      rw [List.getElem?_append_right (by simp [hA']), List.length_reverse, hA', Nat.sub_self] at hg
      cases hg
      constructor
      · intro y hy
        obtain ⟨o, ho, hy⟩ := List.mem_flatMap.mp hy
        exact cube_allZ (fun ch _ x _ y _ => hk o (hall o (List.mem_range.mp ho)) ch x y) y hy
      · intro y hy
        obtain ⟨o, ho, rfl⟩ := List.mem_map.mp hy
        exact hb0 o (hall o (List.mem_range.mp ho))

/-! ## Training -/

/-- C117. One training call does not move a dead filter: if filter `o` of a convolutional layer anywhere
in the network is dead on every input of the batch, the call leaves its bias and its kernels exactly as
they are, for every loss and every (also complex) learning rate. The layers before it may move, unless
they have no parameters. -/
theorem C117_step (n n' : Net (Cf w ℝ)) {s s' : Size} (hr : n.Ready s s') {pre post : List (Layer (Cf w ℝ))}
    {l : Conv (Cf w ℝ)} {nf m p q r c : Nat} {K : Nat → Nat → Nat → Nat → Cf w ℝ} {b : Nat → Cf w ℝ}
    {f : ActFunc} (hn : n.layers = pre ++ .conv l :: post) (hl : l.Is nf m p q K b f) (o : Nat)
    (data : Dataset (Cf w ℝ)) (hs : data.HasSize s s')
    (hd : ∀ z ∈ data.points, FilterDeadOn pre m p q r c K b f o z.1) (lf : LossFunc) (lr : Cf w ℝ)
    (res : Except ForwardErr Unit) (h : n.gradientOpt data lf lr = some (res, n')) :
    ∃ pre' l' post' K' b', n'.layers = pre' ++ .conv l' :: post' ∧ l'.Is nf m p q K' b' f
      ∧ pre'.length = pre.length ∧ ((∀ l ∈ pre, l.Fixed) → pre' = pre)
      ∧ b' o = b o ∧ K' o = K o := by
  obtain ⟨-, gss, scale, h1, -, rfl⟩ := (C50_step n n' hr.layers hr.wf data lf lr res).mp h
  have hfit : List.Forall₂ LayerVec.Fits (sumGrads n gss) n.layers := by
    refine sumGrads_fits n gss fun gs hgs => ?_
    obtain ⟨p, -, hp⟩ := forall₂_mem_right h1 gs hgs
    exact hp.2
  have hQ := fun g hg => sumGrads_at (n := n) (k := pre.length) (g := g)
    (Q := ZeroFor nf m p q (· = o)) (fun _ _ => ZeroFor.add)
    (fun l0 hl0 => by
      rw [hn] at hl0
      simp at hl0
      subst hl0
      exact ⟨fun _ _ _ _ => 0, fun _ => 0, zero_conv hl, fun _ _ => ⟨rfl, fun _ _ _ => rfl⟩⟩) gss
    (fun gs hgs g hg => by
      obtain ⟨⟨x, t⟩, hp, hp'⟩ := forall₂_mem_right h1 gs hgs
      obtain ⟨z1, z2⟩ := hs _ hp
      exact (dead_filter (S := (· = o)) hr hn hl z1 z2 ⟨o, rfl⟩ (fun o' ho' => by subst ho'; exact hd _ hp) hp'.1).1 g hg) hg
  generalize sumGrads n gss = G at *
  rw [hn] at hfit
  obtain ⟨G1, G2, rfl, f1, f2⟩ := forall₂_append_inv hfit.flip
  replace f1 : List.Forall₂ LayerVec.Fits G1 pre := f1.flip
  replace f2 : List.Forall₂ LayerVec.Fits G2 (.conv l :: post) := f2.flip
  cases f2 with
  | @cons g _ G2 _ f2 f3 =>
    have hlen1 := f1.length_eq
    obtain ⟨D, e, rfl, h0⟩ := hQ g (by rw [← hlen1]; simp)
    obtain ⟨l', e1, e2⟩ := Conv.move_is hl (fun p d => p - CplxOps.conj (BasicOps.mulAssign d scale)) D e
    refine ⟨List.zipWith (Layer.zipParams (fun p d => p - CplxOps.conj (BasicOps.mulAssign d scale))) pre G1,
      l', List.zipWith (Layer.zipParams (fun p d => p - CplxOps.conj (BasicOps.mulAssign d scale))) post G2,
      _, _, ?_, e2, by simp [hlen1], fun hf => fixed_zipParams hf hlen1 _, ?_, ?_⟩
    · show List.zipWith _ n.layers _ = _
      rw [hn, List.zipWith_append hlen1.symm, List.zipWith_cons_cons]
      exact congrArg (fun z => _ ++ z :: _) e1
    · show b o - CplxOps.conj (BasicOps.mulAssign (e o) scale) = _
      rw [(h0 o rfl).1, upd_zero]
    · funext ch x y
      show K o ch x y - CplxOps.conj (BasicOps.mulAssign (D o ch x y) scale) = _
      rw [(h0 o rfl).2, upd_zero]

theorem FilterDeadOn.congr {pre : List (Layer (Cf w ℝ))} {m p q r c : Nat}
    {K K' : Nat → Nat → Nat → Nat → Cf w ℝ} {b b' : Nat → Cf w ℝ} {f : ActFunc} {o : Nat}
    {x : IOType (Cf w ℝ)} (h : FilterDeadOn pre m p q r c K b f o x) (hb : b' o = b o) (hK : K' o = K o) :
    FilterDeadOn pre m p q r c K' b' f o x := by
  unfold FilterDeadOn
  rw [hb, hK]
  exact h

theorem gradientOpt_ready {n n' : Net (Cf w ℝ)} {s s' : Size} (hr : n.Ready s s') {data : Dataset (Cf w ℝ)}
    (hs : data.HasSize s s') {lf : LossFunc} {lr : Cf w ℝ} {res : Except ForwardErr Unit}
    (h : n.gradientOpt data lf lr = some (res, n')) : n'.Ready s s' := by
  cases hq : BasicOps.div lr (CplxOps.ofUsize data.inputs.length) with
  | none =>
    rw [(C66_panics n hr data hs lf lr).mpr hq] at h
    cases h
  | some scale =>
    obtain ⟨m1, e1, e2⟩ := C66_step n hr data hs lf lr scale hq
    rw [h] at e1
    cases e1
    exact e2

/-- C117. A dead filter of the first layer with parameters stays dead for ever: over any history of
training calls whose inputs it is dead on, its bias and its kernels do not change, and it is still dead on
every input it was dead on. -/
theorem C117_history (n n' : Net (Cf w ℝ)) {s s' : Size} (hr : n.Ready s s')
    {pre post : List (Layer (Cf w ℝ))} (hpre : ∀ l ∈ pre, l.Fixed) {l : Conv (Cf w ℝ)} {nf m p q r c : Nat}
    {K : Nat → Nat → Nat → Nat → Cf w ℝ} {b : Nat → Cf w ℝ} {f : ActFunc}
    (hn : n.layers = pre ++ .conv l :: post) (hl : l.Is nf m p q K b f) (o : Nat)
    (steps : List (TrainStep (Cf w ℝ))) (hs : ∀ st ∈ steps, st.1.HasSize s s')
    (hd : ∀ st ∈ steps, ∀ z ∈ st.1.points, FilterDeadOn pre m p q r c K b f o z.1)
    (h : n.train steps = some n') :
    ∃ l' post' K' b', n'.layers = pre ++ .conv l' :: post' ∧ l'.Is nf m p q K' b' f
      ∧ b' o = b o ∧ K' o = K o
      ∧ ∀ x, FilterDeadOn pre m p q r c K b f o x → FilterDeadOn pre m p q r c K' b' f o x := by
  induction steps generalizing n l post K b with
  | nil =>
    cases h
    exact ⟨l, post, K, b, hn, hl, rfl, rfl, fun _ h => h⟩
  | cons st steps ih =>
    obtain ⟨res, n1, h1, h2⟩ := Net.train_cons h
    obtain ⟨pre', l1, post1, K1, b1, e1, e2, -, e4, e5, e6⟩ :=
      C117_step n n1 hr hn hl o st.1 (hs st (by simp)) (hd st (by simp)) st.2.1 st.2.2 res h1
    rw [e4 hpre] at e1
    obtain ⟨l2, post2, K2, b2, k1, k2, k3, k4, k5⟩ := ih n1 (gradientOpt_ready hr (hs st (by simp)) h1)
      e1 e2 (fun st' h' => hs st' (by simp [h'])) (fun st' h' z hz => (hd st' (by simp [h']) z hz).congr e5 e6) h2
    exact ⟨l2, post2, K2, b2, k1, k2, k3.trans e5, k4.trans e6, fun x hx => k5 x (hx.congr e5 e6)⟩

/-! ## Layers that are dead as a whole -/

/-- C117. If all filters of a convolutional layer are dead on every input of the batch, a training call
changes neither that layer nor any layer before it, of whatever kind. -/
theorem C117_layer (n n' : Net (Cf w ℝ)) {s s' : Size} (hr : n.Ready s s') {pre post : List (Layer (Cf w ℝ))}
    {l : Conv (Cf w ℝ)} {nf m p q r c : Nat} {K : Nat → Nat → Nat → Nat → Cf w ℝ} {b : Nat → Cf w ℝ}
    {f : ActFunc} (hn : n.layers = pre ++ .conv l :: post) (hl : l.Is nf m p q K b f)
    (data : Dataset (Cf w ℝ)) (hs : data.HasSize s s')
    (hd : ∀ z ∈ data.points, ∀ o, o < nf → FilterDeadOn pre m p q r c K b f o z.1) (lf : LossFunc)
    (lr : Cf w ℝ) (res : Except ForwardErr Unit) (h : n.gradientOpt data lf lr = some (res, n')) :
    ∃ post', n'.layers = pre ++ .conv l :: post' := by
  obtain ⟨-, gss, scale, h1, -, rfl⟩ := (C50_step n n' hr.layers hr.wf data lf lr res).mp h
  have hw := hr.wf
  have hnf : 0 < nf := by
    have hf := hr.fits
    rw [hn] at hf
    obtain ⟨u, -, f2⟩ := hf.split
    cases f2 with
    | cons f2 _ =>
      obtain ⟨_, _, -, -, i1, -⟩ := (Conv.fits_dims hl).mp f2
      exact i1
  have hfit : List.Forall₂ LayerVec.Fits (sumGrads n gss) n.layers := by
    refine sumGrads_fits n gss fun gs hgs => ?_
    obtain ⟨p, -, hp⟩ := forall₂_mem_right h1 gs hgs
    exact hp.2
  have hQ : ∀ k, k ≤ pre.length → ∀ g, (sumGrads n gss)[k]? = some g → AllZ g.1 ∧ AllZ g.2 := by
    intro k hk g hg
    refine sumGrads_at (n := n) (k := k) (Q := fun g => AllZ g.1 ∧ AllZ g.2)
      (fun a c ha hc => ⟨zipWith_add_zero ha.1 hc.1, zipWith_add_zero ha.2 hc.2⟩)
      (fun l0 _ => zero_allZ l0) gss ?_ hg
    intro gs hgs g hg
    obtain ⟨⟨x, t⟩, hp, hp'⟩ := forall₂_mem_right h1 gs hgs
    obtain ⟨z1, z2⟩ := hs _ hp
    exact (dead_filter (S := (· < nf)) hr hn hl z1 z2 ⟨0, hnf⟩ (hd _ hp) hp'.1).2 (fun _ h => h) k hk g hg
  generalize sumGrads n gss = G at *
  rw [hn] at hfit hw
  obtain ⟨G1, G2, rfl, f1, f2⟩ := forall₂_append_inv hfit.flip
  replace f1 : List.Forall₂ LayerVec.Fits G1 pre := f1.flip
  replace f2 : List.Forall₂ LayerVec.Fits G2 (.conv l :: post) := f2.flip
  cases f2 with
  | @cons g _ G2 _ f2 f3 =>
    have hlen1 := f1.length_eq
    refine ⟨List.zipWith (Layer.zipParams (fun p d => p - CplxOps.conj (BasicOps.mulAssign d scale))) post G2, ?_⟩
    show List.zipWith _ n.layers _ = _
    have hg := hQ pre.length le_rfl g (by rw [← hlen1]; simp)
    rw [hn, List.zipWith_append hlen1.symm, List.zipWith_cons_cons,
      Layer.zipParams_id (upd := fun p d => p - CplxOps.conj (BasicOps.mulAssign d scale))
        (upd_zero scale) (hw _ (by simp)) f2 hg.1 hg.2,
      zipParams_front (upd := fun p d => p - CplxOps.conj (BasicOps.mulAssign d scale))
        (upd_zero scale) (fun l hl => hw l (by simp [hl])) f1]
    intro g' hg'
    obtain ⟨k, hk⟩ := List.mem_iff_getElem?.mp hg'
    have hk' : k < G1.length := (List.getElem?_eq_some_iff.mp hk).1
    exact hQ k (by omega) g' (by rw [List.getElem?_append_left hk', hk])

/-- C117. Over any history of training calls on whose inputs a whole convolutional layer is dead, that
layer and all layers before it stay as they are. -/
theorem C117_layer_history (n n' : Net (Cf w ℝ)) {s s' : Size} (hr : n.Ready s s')
    {pre post : List (Layer (Cf w ℝ))} {l : Conv (Cf w ℝ)} {nf m p q r c : Nat}
    {K : Nat → Nat → Nat → Nat → Cf w ℝ} {b : Nat → Cf w ℝ} {f : ActFunc}
    (hn : n.layers = pre ++ .conv l :: post) (hl : l.Is nf m p q K b f) (steps : List (TrainStep (Cf w ℝ)))
    (hs : ∀ st ∈ steps, st.1.HasSize s s')
    (hd : ∀ st ∈ steps, ∀ z ∈ st.1.points, ∀ o, o < nf → FilterDeadOn pre m p q r c K b f o z.1)
    (h : n.train steps = some n') : ∃ post', n'.layers = pre ++ .conv l :: post' := by
  induction steps generalizing n post with
  | nil => cases h; exact ⟨post, hn⟩
  | cons st steps ih =>
    obtain ⟨res, n1, h1, h2⟩ := Net.train_cons h
    obtain ⟨post1, e1⟩ := C117_layer n n1 hr hn hl st.1 (hs st (by simp)) (hd st (by simp)) st.2.1 st.2.2 res h1
    exact ih n1 (gradientOpt_ready hr (hs st (by simp)) h1) e1 (fun st' h' => hs st' (by simp [h']))
      (fun st' h' => hd st' (by simp [h'])) h2

/-! ## Filters that are dead on all bounded images -/

/-- The weighted sum of a filter on entries of modulus at most `B`. -/
theorem patch_bound (m p q : Nat) (X K : Nat → Nat → Nat → Cf w ℝ) {B : ℝ}
    (hX : ∀ ch, ch < m → ∀ x, x < p → ∀ y, y < q → ‖(X ch x y).toC‖ ≤ B) :
    ‖(∑ ch ∈ Finset.range m, ∑ x ∈ Finset.range p, ∑ y ∈ Finset.range q, X ch x y * K ch x y).toC‖
      ≤ B * ∑ ch ∈ Finset.range m, ∑ x ∈ Finset.range p, ∑ y ∈ Finset.range q, ‖(K ch x y).toC‖ := by
  rw [Cf.toC_sum, Finset.mul_sum]
  refine (norm_sum_le _ _).trans (Finset.sum_le_sum fun ch hch => ?_)
  rw [Cf.toC_sum, Finset.mul_sum]
  refine (norm_sum_le _ _).trans (Finset.sum_le_sum fun x hx => ?_)
  rw [Cf.toC_sum, Finset.mul_sum]
  refine (norm_sum_le _ _).trans (Finset.sum_le_sum fun y hy => ?_)
  rw [Cf.toC_hom_mul, norm_mul]
  exact mul_le_mul_of_nonneg_right (hX ch (Finset.mem_range.mp hch) x (Finset.mem_range.mp hx) y
    (Finset.mem_range.mp hy)) (norm_nonneg _)

/-- C117. How a filter gets there: let `S` be the sum of the moduli of its kernels. If all entries of an
image have modulus at most `B` and both parts of the bias are below `-B S` (for `ZReLU` one part is
enough), then a filter of the first layer is dead on that image. So a step that moves the bias that far
has switched the filter off for all images of that range, and by `C117_history` for ever. -/
theorem C117_bound {m p q r c : Nat} (K : Nat → Nat → Nat → Nat → Cf w ℝ) (b : Nat → Cf w ℝ) (f : ActFunc)
    (o : Nat) (hpr : p ≤ r) (hqc : q ≤ c) {B : ℝ}
    (hb : (f = .ritReLU
        ∧ (b o).x < -(B * ∑ ch ∈ Finset.range m, ∑ x ∈ Finset.range p, ∑ y ∈ Finset.range q, ‖(K o ch x y).toC‖)
        ∧ (b o).y < -(B * ∑ ch ∈ Finset.range m, ∑ x ∈ Finset.range p, ∑ y ∈ Finset.range q, ‖(K o ch x y).toC‖))
      ∨ (f = .zReLU ∧ ((b o).x < -(B * ∑ ch ∈ Finset.range m, ∑ x ∈ Finset.range p, ∑ y ∈ Finset.range q,
            ‖(K o ch x y).toC‖)
          ∨ (b o).y < -(B * ∑ ch ∈ Finset.range m, ∑ x ∈ Finset.range p, ∑ y ∈ Finset.range q,
            ‖(K o ch x y).toC‖))))
    {ms : List (Mat (Cf w ℝ))} {X : Nat → Nat → Nat → Cf w ℝ} (hX : MapsAre ms m r c X)
    (hB : ∀ ch, ch < m → ∀ i, i < r → ∀ j, j < c → ‖(X ch i j).toC‖ ≤ B) :
    FilterDeadOn [] m p q r c K b f o (.matrix ms) := by
  intro ys hc
  cases hc
  refine ⟨ms, X, rfl, hX, fun i hi j hj => ?_⟩
  have hn := patch_bound m p q (fun ch x y => X ch (i + x) (j + y)) (K o)
    fun ch hch x hx y hy => hB ch hch _ (by omega) _ (by omega)
  generalize (∑ ch ∈ Finset.range m, ∑ x ∈ Finset.range p, ∑ y ∈ Finset.range q,
    X ch (i + x) (j + y) * K o ch x y) = v at hn ⊢
  generalize B * ∑ ch ∈ Finset.range m, ∑ x ∈ Finset.range p, ∑ y ∈ Finset.range q,
    ‖(K o ch x y).toC‖ = S at hn hb
  have h1 : v.x ≤ S := (Complex.re_le_norm v.toC).trans hn
  have h2 : v.y ≤ S := ((le_abs_self _).trans (Complex.abs_im_le_norm v.toC)).trans hn
  have hx : (v + b o).x = v.x + (b o).x := rfl
  have hy : (v + b o).y = v.y + (b o).y := rfl
  rcases hb with ⟨rfl, h3, h4⟩ | ⟨rfl, h3 | h3⟩
  · exact (flat_ritReLU _).mpr ⟨by rw [hx]; linarith, by rw [hy]; linarith⟩
  · exact (flat_zReLU _).mpr (.inl (by rw [hx]; linarith))
  · exact (flat_zReLU _).mpr (.inr (by rw [hy]; linarith))

/-! ## What the network sees of a dead layer -/

theorem relu_total {f : ActFunc} (hf : f = .ritReLU ∨ f = .zReLU) (z : Cf w ℝ) :
    ∃ y, CplxOps.activate f z = some y := by
  rcases hf with rfl | rfl <;> exact ⟨_, rfl⟩

/-- C117. Behind a convolutional `RITReLU` or `ZReLU` layer all of whose filters are dead on two inputs,
the network predicts the same for both. -/
theorem C117_constant (n : Net (Cf w ℝ)) {s s' : Size} (hr : n.Ready s s') {pre post : List (Layer (Cf w ℝ))}
    {l : Conv (Cf w ℝ)} {nf m p q r c : Nat} {K : Nat → Nat → Nat → Nat → Cf w ℝ} {b : Nat → Cf w ℝ}
    {f : ActFunc} (hn : n.layers = pre ++ .conv l :: post) (hl : l.Is nf m p q K b f)
    (hf : f = .ritReLU ∨ f = .zReLU) (x x' : IOType (Cf w ℝ)) (hx : x.HasSize s) (hx' : x'.HasSize s)
    (hd : ∀ o, o < nf → FilterDeadOn pre m p q r c K b f o x)
    (hd' : ∀ o, o < nf → FilterDeadOn pre m p q r c K b f o x') : n.forward x = n.forward x' := by
  obtain ⟨-, hw, hfit, htot, hback⟩ := hr
  rw [hn] at hw hfit htot hback
  obtain ⟨s₁, f1, f2⟩ := hfit.split
  cases f2 with
  | @cons _ _ _ s₂ _ f2 f3 =>
    obtain ⟨r', c', rfl, rfl, hnf, hm, hp, hpr, hq, hqc⟩ := (Conv.fits_dims hl).mp f2
    obtain ⟨ks, -, -, hc⟩ := Corr.of_fits f1 (fun l hl => hw l (by simp [hl])) (fun l hl => htot l (by simp [hl]))
      (fun l hl => hback l (by simp [hl]))
    choose A hA using relu_total (w := w) hf
    have key : ∀ x, x.HasSize s → (∀ o, o < nf → FilterDeadOn pre m p q r c K b f o x) →
        ∃ ys prev, Chain pre x ys ∧ (x :: ys).getLast? = some prev
          ∧ (Layer.conv l).forward prev = some (.ok (.matrix ((List.range nf).map fun _ => Mat.fromBody
            (table (r - p + 1) (c - q + 1) fun _ _ => (0 : Cf w ℝ)) (r - p + 1, c - q + 1)))) := by
      intro x hx hd
      obtain ⟨ys, ys', prev, prev', c1, -, c3, -, ⟨-, c5⟩, -⟩ := hc.pass (x := x) (x' := x) ⟨rfl, hx⟩
      obtain ⟨ms, X, d1, d2, -⟩ := hd 0 hnf ys c1
      rw [c3] at d1
      cases d1
      obtain ⟨rfl, rfl⟩ := d2.same_dims hm c5
      refine ⟨ys, _, c1, c3, ?_⟩
      show l.forward (.matrix ms) = _
      rw [Conv.forward_maps hl hnf hm hp hpr hq hqc d2 A hA]
      congr 3
      refine List.map_congr_left fun o ho => ?_
      congr 1
      refine table_congr fun i hi j hj => ?_
      obtain ⟨ms', X', e1, e2, e3⟩ := hd o (List.mem_range.mp ho) ys c1
      rw [c3] at e1
      cases e1
      have h0 : f.Flat (convPre m p q X K b o i j) := by
        rw [convPre_sum]
        convert e3 i hi j hj using 2
        exact Finset.sum_congr rfl fun ch hch => Finset.sum_congr rfl fun x hx =>
          Finset.sum_congr rfl fun y hy => by
            rw [Finset.mem_range] at hch hx hy
            rw [d2.entry e2 hch (by omega) (by omega)]
      exact Option.some.inj ((hA _).symm.trans (flat_relu_zero hf h0))
    obtain ⟨ys, prev, c1, c2, c3⟩ := key x hx hd
    obtain ⟨ys', prev', c1', c2', c3'⟩ := key x' hx' hd'
    obtain ⟨ks', -, -, hc'⟩ := Corr.of_fits f3 (fun l hl => hw l (by simp [hl]))
      (fun l hl => htot l (by simp [hl])) (fun l hl => hback l (by simp [hl]))
    obtain ⟨y0, y1, y2⟩ := Layer.forward_fits (hw (.conv l) (by simp)) (htot (.conv l) (by simp)) f2
      (show prev.HasSize _ from by
        obtain ⟨us, us', pv, pv', i1, -, i3, -, ⟨-, i5⟩, -⟩ := hc.pass (x := x) (x' := x) ⟨rfl, hx⟩
        rw [i1.unique c1, c2] at i3
        rw [Option.some.inj i3]
        exact i5)
    rw [c3] at y1
    obtain rfl := Except.ok.inj (Option.some.inj y1)
    obtain ⟨ws, ws', z, z', k1, -, k3, -⟩ := hc'.pass ⟨rfl, y2⟩
    have fin : ∀ x ys prev, Chain pre x ys → (x :: ys).getLast? = some prev →
        (Layer.conv l).forward prev = some (.ok (.matrix ((List.range nf).map fun _ => Mat.fromBody
            (table (r - p + 1) (c - q + 1) fun _ _ => (0 : Cf w ℝ)) (r - p + 1, c - q + 1)))) →
        n.forward x = some (.ok z) := by
      intro x ys prev g1 g2 g3
      refine (C44_forward n (by rw [hn]; simp) x _).mpr ⟨_, z, by rw [hn]; exact g1.append_mid g2 g3 k1, ?_, rfl⟩
      rw [List.getLast?_append_of_ne_nil _ (by simp), k3]
    rw [fin x ys prev c1 c2 c3, fin x' ys' prev' c1' c2' c3']

/-! ## Examples -/

/-- One `1 × 1` kernel 1 with bias `-2 - 2i` and `RITReLU` on images of one pixel. -/
noncomputable def darkConv : Conv (Cf w ℝ) :=
  ⟨1, Mat.fromBody (table 1 1 fun _ _ => Mat.fromBody (table 1 1 fun _ _ => 1) (1, 1)) (1, 1),
    (List.range 1).map fun _ => ⟨-2, -2⟩, .ritReLU⟩

noncomputable def dark : Net (Cf w ℝ) := ⟨[.conv darkConv, .flatten ⟨((1, 1), 1)⟩]⟩

theorem darkConv_is : (darkConv (w := w)).Is 1 1 1 1 (fun _ _ _ _ => 1) (fun _ => ⟨-2, -2⟩) .ritReLU :=
  ⟨rfl, rfl, rfl, _, Mat.fromBody_is 1 1 _, fun _ _ _ _ => Mat.fromBody_is 1 1 _⟩

theorem dark_ready : (dark (w := w)).Ready (.maps 1 1 1) (.vec 1) := by
  refine ⟨by simp [dark], ?_, ?_, ?_, ?_⟩
  · simp only [dark, List.mem_cons, List.not_mem_nil, or_false, forall_eq_or_imp, forall_eq]
    exact ⟨darkConv_is.wf, trivial⟩
  · exact .cons ((Conv.fits_dims darkConv_is).mpr ⟨1, 1, rfl, rfl, by simp⟩)
      (.cons (s₁ := .vec 1) ⟨rfl, rfl⟩ (.nil _))
  · simp only [dark, List.mem_cons, List.not_mem_nil, or_false, forall_eq_or_imp, forall_eq]
    exact ⟨fun z => ⟨_, rfl⟩, trivial⟩
  · simp only [dark, List.mem_cons, List.not_mem_nil, or_false, forall_eq_or_imp, forall_eq]
    exact ⟨⟨fun z => (C66_total .ritReLU (by simp) z).1, fun z => (C66_total .ritReLU (by simp) z).2⟩, trivial⟩

theorem dark_dead (x : Cf w ℝ) (hx : ‖x.toC‖ ≤ 1) :
    FilterDeadOn [] 1 1 1 1 1 (fun _ _ _ _ => 1) (fun _ => ⟨-2, -2⟩) .ritReLU 0 (pixel x) := by
  refine C117_bound (B := 1) _ _ _ _ le_rfl le_rfl (.inl ⟨rfl, ?_⟩) (pixel_is x) fun _ _ _ _ _ _ => hx
  simp only [Finset.range_one, Finset.sum_singleton, Cf.toC_hom_one, norm_one]
  norm_num

/-- Trained with any pixels of modulus at most one, any targets, losses and rates, the network keeps its
filter; and it predicts the same for all such pixels. -/
example (steps : List (TrainStep (Cf w ℝ))) (hs : ∀ st ∈ steps, st.1.HasSize (.maps 1 1 1) (.vec 1))
    (hp : ∀ st ∈ steps, ∀ z ∈ st.1.points, ∃ x : Cf w ℝ, z.1 = pixel x ∧ ‖x.toC‖ ≤ 1) (n' : Net (Cf w ℝ))
    (h : dark.train steps = some n') :
    (∃ post', n'.layers = .conv darkConv :: post')
      ∧ ∀ x x' : Cf w ℝ, ‖x.toC‖ ≤ 1 → ‖x'.toC‖ ≤ 1 → dark.forward (pixel x) = dark.forward (pixel x') := by
  constructor
  · refine C117_layer_history dark n' dark_ready (pre := []) (r := 1) (c := 1) rfl darkConv_is steps hs ?_ h
    intro st hst z hz o ho
    obtain ⟨x, e, hx⟩ := hp st hst z hz
    obtain rfl : o = 0 := by omega
    rw [e]
    exact dark_dead x hx
  · intro x x' hx hx'
    refine C117_constant dark dark_ready (pre := []) rfl darkConv_is (.inl rfl) _ _ (pixel_is x).hasSize
      (pixel_is x').hasSize (r := 1) (c := 1) ?_ ?_
    · intro o ho
      obtain rfl : o = 0 := by omega
      exact dark_dead x hx
    · intro o ho
      obtain rfl : o = 0 := by omega
      exact dark_dead x' hx'

end Renplex
