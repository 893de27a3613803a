import Verif.Props.ConvGrad
import Verif.Props.Training
import Verif.Props.NetworkSize
import Verif.Props.NetworkEval
import Verif.Props.Descent
import Verif.Props.Loss
/-!
# C66: training never panics
-/

namespace Renplex
variable {α P : Type}

theorem mapM_total {β γ : Type} (f : β → Option γ) (l : List β) (h : ∀ a ∈ l, ∃ b, f a = some b) :
    ∃ r, l.mapM f = some r ∧ r.length = l.length := by
  induction l with
  | nil => exact ⟨[], rfl, rfl⟩
  | cons a l ih =>
    obtain ⟨b, hb⟩ := h a (by simp)
    obtain ⟨r, hr, hl⟩ := ih fun a ha => h a (by simp [ha])
    exact ⟨b :: r, by simp [List.mapM_cons, hb, hr], by simp [hl]⟩

theorem addSliceMut_total [BasicOps α] (a b : List α) (h : a.length = b.length) :
    ∃ c, addSliceMut a b = .ok c ∧ c.length = a.length := by
  unfold addSliceMut
  rw [if_neg (by simpa using h)]
  exact ⟨_, rfl, by simp [zipUpd_length]⟩

/-! ## Dense layers -/

theorem Dense.derivLoop_total [BasicOps α] (input : List α) (items : List ((α × α) × List α))
    (a b d : List α) (h : ∀ it ∈ items, it.2.length = d.length) :
    ∃ a' b' d', Dense.derivLoop input items (a, b, d) = some (a', b', d')
      ∧ a'.length = a.length + items.length * input.length
      ∧ b'.length = b.length + items.length ∧ d'.length = d.length := by
  induction items generalizing a b d with
  | nil => exact ⟨a, b, d, rfl, by simp, by simp, rfl⟩
  | cons it items ih =>
    obtain ⟨⟨v, cv⟩, row⟩ := it
    obtain ⟨d1, h1, h2⟩ := addSliceMut_total d (row.map fun e => BasicOps.mul e (BasicOps.add v cv))
      (by have := h ((v, cv), row) (by simp); simpa using this.symm)
    obtain ⟨a', b', d', e1, e2, e3, e4⟩ := ih
      (a ++ input.map fun e => BasicOps.mul e (BasicOps.add v cv)) (b ++ [BasicOps.add v cv]) d1
      (fun it hit => by rw [h2]; exact h it (by simp [hit]))
    refine ⟨a', b', d', ?_, ?_, ?_, e4.trans h2⟩
    · simp only [Dense.derivLoop, h1, unwrap, Option.bind_eq_bind, Option.bind_some]
      exact e1
    · rw [e2]; simp [Nat.succ_mul]; omega
    · rw [e3]; simp; omega

/-- The chain rule factors of one layer: one per pre-activation. -/
theorem factors_total (q d : List α) (g : α → Run α) (m : α → α → α)
    (hg : ∀ z, ∃ y, g z = some y) (h : d.length = q.length) :
    ∃ r, ((q.zip d).mapM fun p => (g p.1).bind fun y => some (m y p.2)) = some r
      ∧ r.length = q.length := by
  obtain ⟨r, h1, h2⟩ := mapM_total (fun p : α × α => (g p.1).bind fun y => some (m y p.2)) (q.zip d)
    (fun p _ => by obtain ⟨y, hy⟩ := hg p.1; exact ⟨m y p.2, by rw [hy]; rfl⟩)
  exact ⟨r, h1, by rw [h2, List.length_zip, h, Nat.min_self]⟩

theorem Dense.back_total [CplxOps α P] {l : Dense α} (hw : (Layer.dense l).WF)
    (ht : (Layer.dense l).TotalBack) {n u : Nat} (hn : 0 < n) (hs : l.weights.shape = (u, n))
    (v d dc : List α) (hv : v.length = n) (hd : d.length = u) (hdc : dc.length = u) :
    ∃ dw db nd ndc, l.computeDerivatives (.scalar v) d dc = some (.ok (dw, db, nd, ndc))
      ∧ dw.length = u * n ∧ db.length = u ∧ nd.length = n ∧ ndc.length = n := by
  have : Nonempty α := ⟨BasicOps.zero⟩
  obtain ⟨W, b, hW⟩ := Dense.exists_is hw
  rw [hs] at hW
  obtain ⟨f, hf⟩ := exists_range_map v
  rw [hv] at hf
  have hq := Dense.computeQ_is hW hn f
  rw [← hf] at hq
  obtain ⟨r1, e1, k1⟩ := factors_total ((List.range u).map fun j =>
    BasicOps.addAssign (dotN n (W j) f) (b j)) d (CplxOps.dActivate l.func)
    (fun y p => BasicOps.mul y p) ht.1 (by simp [hd])
  obtain ⟨r2, e2, k2⟩ := factors_total ((List.range u).map fun j =>
    BasicOps.addAssign (dotN n (W j) f) (b j)) dc (CplxOps.dConjActivate l.func)
    (fun y p => BasicOps.mul (CplxOps.conj y) p) ht.2 (by simp [hdc])
  have hr := C18_rows hW.1 hn
  have hlen : ((r1.zip r2).zip ((List.range u).map fun i => (List.range n).map (W i))).length = u := by
    simp [k1, k2]
  obtain ⟨a', b', d', e3, k3, k4, k5⟩ := Dense.derivLoop_total v
    ((r1.zip r2).zip ((List.range u).map fun i => (List.range n).map (W i))) [] []
    (List.replicate n BasicOps.zero) (by
      intro it hit
      have := (List.of_mem_zip hit).2
      obtain ⟨i, -, hi⟩ := List.mem_map.mp this
      rw [← hi]; simp)
  refine ⟨a', b', d', d'.map CplxOps.conj, ?_, ?_, ?_, by simpa using k5, by simpa using k5⟩
  · unfold Dense.computeDerivatives
    rw [hs, if_neg (by simp [hd]), if_neg (by simp [hdc])]
    simp only [Option.bind_eq_bind]
    rw [hq]
    simp only [Option.bind_some]
    rw [e1]
    simp only [Option.bind_some]
    rw [e2]
    simp only [Option.bind_some]
    rw [hr]
    simp only [Option.bind_some]
    rw [e3]
    rfl
  · rw [k3, hlen, hv]; simp
  · rw [k4, hlen]; simp

/-! ## Convolutional layers -/

theorem flatten_length_const {β : Type} (ls : List (List β)) (k : Nat) (h : ∀ l ∈ ls, l.length = k) :
    ls.flatten.length = ls.length * k := by
  induction ls with
  | nil => simp
  | cons a ls ih =>
    rw [List.flatten_cons, List.length_append, ih fun l hl => h l (by simp [hl]), h a (by simp),
      List.length_cons, Nat.succ_mul, Nat.add_comm]

theorem mapM_mem {β γ : Type} {f : β → Option γ} {l : List β} {r : List γ}
    (h : l.mapM f = some r) {c : γ} (hc : c ∈ r) : ∃ a ∈ l, f a = some c := by
  obtain ⟨i, hi⟩ := List.mem_iff_getElem?.mp hc
  have hl := mapM_length h
  have hlt : i < l.length := by
    rw [← hl]
    exact (List.getElem?_eq_some_iff.mp hi).1
  have := mapM_getElem? h i
  rw [List.getElem?_eq_getElem hlt, hi] at this
  exact ⟨l[i], List.getElem_mem hlt, by simpa using this.symm⟩

theorem Conv.operA_total [BasicOps α] {maps : List (Mat α)} {n r c R C : Nat}
    (hX : (IOType.matrix maps).HasSize (.maps n r c)) (hR : 1 ≤ R) (hRr : R ≤ r) (hC : 1 ≤ C)
    (hCc : C ≤ c) {feat cfeat : Mat α} {v cv : Nat → Nat → α} (h1 : feat.Is R C v)
    (h2 : cfeat.Is R C cv) :
    ∃ dk db, Conv.operA maps feat cfeat = some (dk, db)
      ∧ dk.length = n * ((r - R + 1) * (c - C + 1)) ∧ db.length = R * C := by
  have : Nonempty α := ⟨BasicOps.zero⟩
  have key : ∀ m ∈ maps, ∃ b : List α, ((m.convolution feat >>= unwrap) >>= fun t1 =>
      (m.convolution cfeat >>= unwrap) >>= fun t2 => unwrap (t1.addMut t2) >>= fun s =>
        some s.body) = some b ∧ b.length = (r - R + 1) * (c - C + 1) := by
    intro m hm
    obtain ⟨hr, hs⟩ := hX.2 m hm
    obtain ⟨f, hf⟩ := Mat.Rect.exists_is hr
    rw [hs] at hf
    have e1 := convolution_is hf h1 hR hRr hC hCc
    have e2 := convolution_is hf h2 hR hRr hC hCc
    obtain ⟨m', k1, k2, -⟩ := C10_add (Mat.fromBody_is (r - R + 1) (c - C + 1) (corr R C f v))
      (Mat.fromBody_is (r - R + 1) (c - C + 1) (corr R C f cv)) (by omega)
    refine ⟨m'.body, ?_, by rw [k2.2, table_length]⟩
    rw [e1, e2]
    simp only [Option.bind_eq_bind, Option.bind_some, unwrap]
    rw [k1]
    rfl
  obtain ⟨parts, hp, hpl⟩ := mapM_total (fun m : Mat α => ((m.convolution feat >>= unwrap) >>=
    fun t1 => (m.convolution cfeat >>= unwrap) >>= fun t2 => unwrap (t1.addMut t2) >>= fun s =>
      some s.body)) maps (fun m hm => by obtain ⟨b, hb, -⟩ := key m hm; exact ⟨b, hb⟩)
  have hl : ∀ l ∈ parts, l.length = (r - R + 1) * (c - C + 1) := by
    intro l hl
    obtain ⟨m, hm, he⟩ := mapM_mem hp hl
    obtain ⟨b, hb, hbl⟩ := key m hm
    rw [hb] at he
    obtain rfl : b = l := by simpa using he
    exact hbl
  have hadd : addSlice feat.body cfeat.body = .ok (table R C fun i j => BasicOps.add (v i j) (cv i j)) := by
    unfold addSlice
    have : 0 < R * C := Nat.mul_pos hR hC
    rw [h1.2, h2.2, table_length, table_length, if_neg (by omega), if_neg (by simp), table_zipWith]
  refine ⟨parts.flatten, table R C fun i j => BasicOps.add (v i j) (cv i j), ?_, ?_,
    table_length _ _ _⟩
  · unfold Conv.operA
    rw [hp, hadd]
    rfl
  · rw [flatten_length_const _ _ hl, hpl, hX.1]

theorem Conv.operB_total [BasicOps α] {ks : List (Mat α)} {R C p q : Nat} (hp : 1 ≤ p) (hq : 1 ≤ q)
    (hR : p ≤ R) (hC : q ≤ C) (hk : ∀ k ∈ ks, k.Rect ∧ k.shape = (p, q)) {pd : Mat α}
    {v : Nat → Nat → α} (hpd : pd.Is R C v) :
    ∃ d, Conv.operB ks pd = some d ∧ d.length = ks.length * ((R - p + 1) * (C - q + 1)) := by
  have : Nonempty α := ⟨BasicOps.zero⟩
  have key : ∀ k ∈ ks, ∃ b : List α, ((pd.convolution k >>= unwrap) >>= fun c => some c.body) = some b
      ∧ b.length = (R - p + 1) * (C - q + 1) := by
    intro k hk'
    obtain ⟨hr, hs⟩ := hk k hk'
    obtain ⟨f, hf⟩ := Mat.Rect.exists_is hr
    rw [hs] at hf
    rw [convolution_is hpd hf hp hR hq hC]
    exact ⟨_, rfl, table_length _ _ _⟩
  obtain ⟨parts, h1, h2⟩ := mapM_total (fun k : Mat α => (pd.convolution k >>= unwrap) >>= fun c =>
    some c.body) ks (fun m hm => by obtain ⟨b, hb, -⟩ := key m hm; exact ⟨b, hb⟩)
  have hl : ∀ l ∈ parts, l.length = (R - p + 1) * (C - q + 1) := by
    intro l hl
    obtain ⟨m, hm, he⟩ := mapM_mem h1 hl
    obtain ⟨b, hb, hbl⟩ := key m hm
    rw [hb] at he
    obtain rfl : b = l := by simpa using he
    exact hbl
  refine ⟨parts.flatten, ?_, by rw [flatten_length_const _ _ hl, h2]⟩
  unfold Conv.operB
  rw [h1]
  rfl

theorem Conv.flips_total [BasicOps α] {ks : List (Mat α)} {p q : Nat}
    (hk : ∀ k ∈ ks, k.Rect ∧ k.shape = (p, q)) :
    ∃ fs, (ks.mapM fun k => k.flip >>= unwrap) = some fs ∧ fs.length = ks.length
      ∧ ∀ f ∈ fs, f.Rect ∧ f.shape = (p, q) := by
  have : Nonempty α := ⟨BasicOps.zero⟩
  have key : ∀ k ∈ ks, ∃ f : Mat α, (k.flip >>= unwrap) = some f ∧ f.Rect ∧ f.shape = (p, q) := by
    intro k hk'
    obtain ⟨hr, hs⟩ := hk k hk'
    obtain ⟨f, hf⟩ := Mat.Rect.exists_is hr
    rw [hs] at hf
    rw [flip_is hf]
    exact ⟨_, rfl, (Mat.fromBody_is p q _).rect, rfl⟩
  obtain ⟨fs, h1, h2⟩ := mapM_total (fun k : Mat α => k.flip >>= unwrap) ks
    (fun m hm => by obtain ⟨b, hb, -⟩ := key m hm; exact ⟨b, hb⟩)
  refine ⟨fs, h1, h2, fun f hf => ?_⟩
  obtain ⟨m, hm, he⟩ := mapM_mem h1 hf
  obtain ⟨b, hb, hbl⟩ := key m hm
  rw [hb] at he
  obtain rfl : b = f := by simpa using he
  exact hbl

theorem Conv.derivLoop_total [BasicOps α] {maps : List (Mat α)} {n r c R C p q : Nat}
    (hX : (IOType.matrix maps).HasSize (.maps n r c)) (hp : 1 ≤ p) (hq : 1 ≤ q) (hR : 1 ≤ R)
    (hC : 1 ≤ C) (hr : R + (p - 1) = r) (hc : C + (q - 1) = c) (filters : List (List (Mat α)))
    (hf : ∀ ks ∈ filters, ks.length = n ∧ ∀ k ∈ ks, k.Rect ∧ k.shape = (p, q)) (s : Conv.DState α)
    (h1 : s.val.length = filters.length * (R * C)) (h2 : s.conjVal.length = filters.length * (R * C))
    (h3 : s.newDlda.length = n * (r * c)) (h4 : s.newDldaConj.length = n * (r * c)) :
    ∃ s', filters.foldlM (Conv.derivStep maps (R, C) (p - 1) (q - 1) (R * C)) s = some s'
      ∧ s'.dldk.length = s.dldk.length + filters.length * (n * (p * q))
      ∧ s'.dldb.length = s.dldb.length + filters.length
      ∧ s'.newDlda.length = n * (r * c) ∧ s'.newDldaConj.length = n * (r * c) := by
  have : Nonempty α := ⟨BasicOps.zero⟩
  induction filters generalizing s with
  | nil => exact ⟨s, rfl, by simp, by simp, h3, h4⟩
  | cons ks filters ih =>
    obtain ⟨hkn, hks⟩ := hf ks (by simp)
    have hpos : 0 < R * C := Nat.mul_pos hR hC
    rw [List.length_cons, Nat.succ_mul] at h1 h2
    obtain ⟨v, hv⟩ := exists_table R C (s.val.take (R * C)) (by rw [List.length_take]; omega)
    obtain ⟨cv, hcv⟩ := exists_table R C (s.conjVal.take (R * C)) (by rw [List.length_take]; omega)
    obtain ⟨fl, e1, e2, e3⟩ := Conv.flips_total hks
    have hpv := pad_is (Mat.fromBody_is R C v) (p - 1) (q - 1)
    have hpcv := pad_is (Mat.fromBody_is R C cv) (p - 1) (q - 1)
    obtain ⟨dk, db, a1, a2, a3⟩ := Conv.operA_total hX hR (by omega) hC (by omega)
      (Mat.fromBody_is R C v) (Mat.fromBody_is R C cv)
    obtain ⟨nd, b1, b2⟩ := Conv.operB_total hp hq (by omega) (by omega) e3
      (Mat.fromBody_is (R + 2 * (p - 1)) (C + 2 * (q - 1)) (padded R C (p - 1) (q - 1) v))
    obtain ⟨ndc, c1, c2⟩ := Conv.operB_total hp hq (by omega) (by omega) e3
      (Mat.fromBody_is (R + 2 * (p - 1)) (C + 2 * (q - 1)) (padded R C (p - 1) (q - 1) cv))
    rw [e2, hkn, show R + 2 * (p - 1) - p + 1 = r by omega,
      show C + 2 * (q - 1) - q + 1 = c by omega] at b2 c2
    rw [show r - R + 1 = p by omega, show c - C + 1 = q by omega] at a2
    obtain ⟨x, db', rfl⟩ : ∃ x db', db = x :: db' := by
      cases db with
      | nil => simp at a3; omega
      | cons x db' => exact ⟨x, db', rfl⟩
    obtain ⟨y1, f1, f2⟩ := addSliceMut_total s.newDlda nd (h3.trans b2.symm)
    obtain ⟨y2, g1, g2⟩ := addSliceMut_total s.newDldaConj ndc (h4.trans c2.symm)
    have step : Conv.derivStep maps (R, C) (p - 1) (q - 1) (R * C) s ks
        = some ⟨s.val.drop (R * C), s.conjVal.drop (R * C), s.dldk ++ dk,
          s.dldb ++ [db'.foldl BasicOps.add x], y1, y2⟩ := by
      unfold Conv.derivStep drainFront
      rw [if_pos (by omega), if_pos (by omega), hv, hcv]
      simp only [Option.bind_eq_bind, Option.bind_some]
      simp only [Option.bind_eq_bind] at e1
      rw [e1]
      simp only [Option.bind_some, hpv, hpcv, a1, b1, c1, reduce, f1, g1, unwrap]
    obtain ⟨s', k1, k2, k3, k4, k5⟩ := ih (fun ks hks => hf ks (by simp [hks]))
      ⟨s.val.drop (R * C), s.conjVal.drop (R * C), s.dldk ++ dk,
          s.dldb ++ [db'.foldl BasicOps.add x], y1, y2⟩
      (by simp only [List.length_drop]; omega) (by simp only [List.length_drop]; omega)
      (f2.trans h3) (g2.trans h4)
    refine ⟨s', ?_, ?_, ?_, k4, k5⟩
    · rw [List.foldlM_cons, step]; exact k1
    · rw [k2, List.length_append, a2, List.length_cons, Nat.succ_mul]; omega
    · rw [k3, List.length_append, List.length_cons]; simp; omega

theorem Conv.back_total [CplxOps α P] {l : Conv α} (hw : (Layer.conv l).WF)
    (ht : (Layer.conv l).TotalBack) {n nf p q r c : Nat} (hn : 0 < n) (hnf : 0 < nf)
    (hs : l.kernels.shape = (nf, n)) (hk : ∀ k ∈ l.kernels.body, k.shape = (p, q)) (hp : 1 ≤ p)
    (hpr : p ≤ r) (hq : 1 ≤ q) (hqc : q ≤ c) {maps : List (Mat α)}
    (hX : (IOType.matrix maps).HasSize (.maps n r c)) (d dc : List α)
    (hd : d.length = nf * ((r - p + 1) * (c - q + 1)))
    (hdc : dc.length = nf * ((r - p + 1) * (c - q + 1))) :
    ∃ dw db nd ndc, l.computeDerivatives (.matrix maps) d dc = some (.ok (dw, db, nd, ndc))
      ∧ dw.length = nf * (n * (p * q)) ∧ db.length = nf ∧ nd.length = n * (r * c)
      ∧ ndc.length = n * (r * c) := by
  have : Nonempty α := ⟨BasicOps.zero⟩
  obtain ⟨K, b, hK⟩ := Conv.exists_is hw hk
  rw [hs] at hK
  obtain ⟨X, hXs⟩ := MapsAre.exists_of hX
  have hcq := Conv.computeQ_is hK hnf hn hp hpr hq hqc hXs
  obtain ⟨r1, e1, k1⟩ := factors_total (cube nf (r - p + 1) (c - q + 1) (convPre n p q X K b)) d
    (CplxOps.dActivate l.func) (fun y p => BasicOps.mul y p) ht.1 (by rw [cube_length, hd])
  obtain ⟨r2, e2, k2⟩ := factors_total (cube nf (r - p + 1) (c - q + 1) (convPre n p q X K b)) dc
    (CplxOps.dConjActivate l.func) (fun y p => BasicOps.mul (CplxOps.conj y) p) ht.2
    (by rw [cube_length, hdc])
  rw [cube_length] at k1 k2
  obtain ⟨k0, hk0e, hk0⟩ := Conv.kernel00 hK hnf hn
  obtain ⟨-, -, -, M, hM, hMK⟩ := hK
  have hr := C18_rows hM hn
  have hf : ∀ ks ∈ (List.range nf).map (fun o => (List.range n).map (M o)),
      ks.length = n ∧ ∀ k ∈ ks, k.Rect ∧ k.shape = (p, q) := by
    intro ks hks
    obtain ⟨o, ho, rfl⟩ := List.mem_map.mp hks
    refine ⟨by simp, fun k hk => ?_⟩
    obtain ⟨ch, hch, rfl⟩ := List.mem_map.mp hk
    have := hMK o (List.mem_range.mp ho) ch (List.mem_range.mp hch)
    exact ⟨this.rect, this.1⟩
  obtain ⟨s', f1, f2, f3, f4, f5⟩ := Conv.derivLoop_total hX hp hq (R := r - p + 1)
    (C := c - q + 1) (by omega) (by omega) (by omega) (by omega) _ hf
    ⟨r1, r2, [], [], List.replicate (r * c * n) BasicOps.zero,
      List.replicate (r * c * n) BasicOps.zero⟩ (by simpa using k1) (by simpa using k2)
      (by simp [Nat.mul_comm]) (by simp [Nat.mul_comm])
  refine ⟨s'.dldk, s'.dldb, s'.newDlda, s'.newDldaConj, ?_, by rw [f2]; simp, by rw [f3]; simp, f4,
    f5⟩
  obtain ⟨m0, hm0⟩ : ∃ m0, maps[0]? = some m0 :=
    ⟨_, List.getElem?_eq_getElem (by rw [hX.1]; exact hn)⟩
  have hm0s := (hX.2 m0 (List.mem_iff_getElem?.mpr ⟨0, hm0⟩)).2
  have hel : (l.kernels.elm 0 0 >>= unwrap) = some k0 := by rw [hk0e]; rfl
  unfold Conv.computeDerivatives
  simp only [Option.bind_eq_bind] at hel ⊢
  rw [hm0]
  simp only [Option.bind_some]
  rw [hel]
  simp only [Option.bind_some, hk0, hm0s]
  have u1 : usub p 1 = some (p - 1) := by simp [usub, hp]
  have u2 : usub q 1 = some (q - 1) := by simp [usub, hq]
  have u3 : usub r (p - 1) = some (r - p + 1) := by unfold usub; rw [if_pos (by omega)]; congr 1; omega
  have u4 : usub c (q - 1) = some (c - q + 1) := by unfold usub; rw [if_pos (by omega)]; congr 1; omega
  simp only [u1, u2, u3, u4, Option.bind_some]
  rw [hcq]
  simp only [Option.bind_some]
  rw [e1]
  simp only [Option.bind_some]
  rw [e2]
  simp only [Option.bind_some, hs]
  rw [if_neg (by omega), hr, k1, Nat.mul_div_cancel_left _ hnf, hX.1]
  simp only [Option.bind_some]
  rw [f1]
  rfl

/-! ## Pooling layers -/

theorem Reduce.derivLoop_total [BasicOps α] {l : Reduce α} (hk : l.interpKernel.Rect)
    (hks : l.interpKernel.shape = (3, 3))
    (hodd : l.blockSize.2 % 2 = 1 → (l.blockSize.1 - 1) / 2 < l.blockSize.2) {r c : Nat} (hr : 0 < r)
    (hc : 0 < c) (hp : 0 < l.blockSize.1) (hq : 0 < l.blockSize.2) (maps : List (Mat α))
    (hm : ∀ m ∈ maps, m.shape = (r * l.blockSize.1, c * l.blockSize.2)) (ds dcs : List (List α))
    (hd : ds.length = maps.length) (hdc : dcs.length = maps.length)
    (h1 : ∀ d ∈ ds, d.length = r * c) (h2 : ∀ d ∈ dcs, d.length = r * c) :
    ∃ a b, l.derivLoop maps ds dcs = some (a, b)
      ∧ a.length = maps.length * (r * l.blockSize.1 * (c * l.blockSize.2))
      ∧ b.length = maps.length * (r * l.blockSize.1 * (c * l.blockSize.2)) := by
  have : Nonempty α := ⟨BasicOps.zero⟩
  obtain ⟨g, hg⟩ := Mat.Rect.exists_is hk
  rw [hks] at hg
  have up : ∀ d : List α, d.length = r * c → ∃ m u : Mat α, Mat.toMatrix d (r, c) = .ok m
      ∧ m.fractionalUpsampling l.blockSize l.interpKernel = some (.ok u)
      ∧ u.body.length = r * l.blockSize.1 * (c * l.blockSize.2) := by
    intro d hd
    obtain ⟨f, hf⟩ := exists_table r c d hd
    obtain ⟨m', -, -, e1, e2⟩ := C16_partial (Mat.fromBody_is r c f) hg hr hc hp hq hodd
    refine ⟨_, m', ?_, e1, by rw [e2.2, table_length]⟩
    unfold Mat.toMatrix
    rw [if_neg (by simpa using hd), hf]
  induction maps generalizing ds dcs with
  | nil => exact ⟨[], [], rfl, by simp, by simp⟩
  | cons m maps ih =>
    cases ds with
    | nil => simp at hd
    | cons d ds =>
      cases dcs with
      | nil => simp at hdc
      | cons dc dcs =>
        obtain ⟨a, b, e1, e2, e3⟩ := ih (fun m hm' => hm m (by simp [hm'])) ds dcs
          (by simpa using hd) (by simpa using hdc) (fun d hd => h1 d (by simp [hd]))
          (fun d hd => h2 d (by simp [hd]))
        obtain ⟨m1, u1, f1, f2, f3⟩ := up d (h1 d (by simp))
        obtain ⟨m2, u2, g1, g2, g3⟩ := up dc (h2 dc (by simp))
        refine ⟨u1.body ++ a, u2.body ++ b, ?_, ?_, ?_⟩
        · unfold Reduce.derivLoop
          rw [hm m (by simp)]
          have w1 : Reduce.udiv (r * l.blockSize.1) l.blockSize.1 = some r := by
            unfold Reduce.udiv; rw [if_neg (by omega), Nat.mul_div_cancel _ hp]
          have w2 : Reduce.udiv (c * l.blockSize.2) l.blockSize.2 = some c := by
            unfold Reduce.udiv; rw [if_neg (by omega), Nat.mul_div_cancel _ hq]
          simp only [w1, w2, Option.bind_eq_bind, Option.bind_some, List.head?_cons, List.tail_cons,
            f1, f2, g1, g2, unwrap, e1]
        · rw [List.length_append, e2, f3, List.length_cons, Nat.succ_mul, Nat.add_comm]
        · rw [List.length_append, e3, g3, List.length_cons, Nat.succ_mul, Nat.add_comm]

theorem chunks_lengths {n : Nat} (hn : 0 < n) (l : List α) (k : Nat) (hl : l.length = k * n)
    [Nonempty α] :
    ∃ rows, chunks n l = some rows ∧ rows.length = k ∧ ∀ row ∈ rows, row.length = n := by
  obtain ⟨f, hf⟩ := exists_table k n l hl
  rw [hf, chunks_table _ _ _ hn]
  refine ⟨_, rfl, by simp, fun row hr => ?_⟩
  obtain ⟨i, -, rfl⟩ := List.mem_map.mp hr
  simp

theorem Reduce.back_total [CplxOps α P] {l : Reduce α} (ht : (Layer.reduce l).TotalBack)
    {n r c : Nat} (hn : n = l.inputFeaturesLen) (hr : 0 < r)
    (hc : 0 < c) (hp : 0 < l.blockSize.1) (hq : 0 < l.blockSize.2) {maps : List (Mat α)}
    (hX : (IOType.matrix maps).HasSize (.maps n (r * l.blockSize.1) (c * l.blockSize.2)))
    (d dc : List α) (hd : d.length = n * (r * c)) (hdc : dc.length = n * (r * c)) :
    ∃ nd ndc, l.computeDerivatives (.matrix maps) d dc = some (.ok ([], [], nd, ndc))
      ∧ nd.length = n * (r * l.blockSize.1 * (c * l.blockSize.2))
      ∧ ndc.length = n * (r * l.blockSize.1 * (c * l.blockSize.2)) := by
  have : Nonempty α := ⟨BasicOps.zero⟩
  obtain ⟨hk, hks, hodd, hpos⟩ := ht
  have hrc : 0 < r * c := Nat.mul_pos hr hc
  obtain ⟨ds, a1, a2, a3⟩ := chunks_lengths hrc d n hd
  obtain ⟨dcs, b1, b2, b3⟩ := chunks_lengths hrc dc n hdc
  obtain ⟨nd, ndc, e1, e2, e3⟩ := Reduce.derivLoop_total hk hks hodd hr hc hp hq maps
    (fun m hm => (hX.2 m hm).2) ds dcs (a2.trans hX.1.symm) (b2.trans hX.1.symm) a3 b3
  rw [hX.1] at e2 e3
  refine ⟨nd, ndc, ?_, e2, e3⟩
  unfold Reduce.computeDerivatives
  have w : Reduce.udiv d.length maps.length = some (r * c) := by
    unfold Reduce.udiv
    rw [hX.1, if_neg (by omega), hd, Nat.mul_div_cancel_left _ (by omega)]
  simp only [w, Option.bind_eq_bind, Option.bind_some, a1, b1, e1]

/-! ## Any layer -/

theorem Conv.paramsLen_eq {l : Conv α} (hw : (Layer.conv l).WF) {nf n p q : Nat}
    (hs : l.kernels.shape = (nf, n)) (hk : ∀ k ∈ l.kernels.body, k.shape = (p, q)) :
    l.paramsLen = (nf * (n * (p * q)), nf) := by
  have h1 : l.kernels.body.length = nf * n := by have := hw.1; rw [Mat.Rect, hs] at this; exact this
  have h2 : ∀ (ks : List (Mat α)) (a : Nat), (∀ k ∈ ks, k.shape = (p, q)) →
      ks.foldl (fun acc k => acc + k.shape.1 * k.shape.2) a = a + ks.length * (p * q) := by
    intro ks
    induction ks with
    | nil => simp
    | cons k ks ih =>
      intro a hk
      rw [List.foldl_cons, ih _ fun k hk' => hk k (by simp [hk']), hk k (by simp), List.length_cons,
        Nat.succ_mul]
      simp only
      omega
  unfold Conv.paramsLen
  rw [h2 _ 0 hk, h1, hw.2.2.1, hs, Nat.zero_add, Nat.mul_assoc]

/-- The backward step through a fitting layer never panics and returns derivatives of the right
lengths. -/
theorem Layer.back_fits [CplxOps α P] {l : Layer α} (hw : l.WF) (ht : l.TotalBack) {s s' : Size}
    (h : l.Fits s s') {x : IOType α} (hx : x.HasSize s) (d dc : List α) (hd : d.length = s'.len)
    (hdc : dc.length = s'.len) :
    ∃ γ nd ndc, l.back x d dc = some (γ, nd, ndc) ∧ LayerVec.Fits γ l ∧ nd.length = s.len
      ∧ ndc.length = s.len := by
  unfold Layer.back LayerVec.Fits
  cases l with
  | dense l =>
    cases s <;> cases s' <;> try exact h.elim
    rename_i n u
    cases x with
    | matrix => exact hx.elim
    | scalar v =>
      obtain ⟨hn, hs⟩ := h
      obtain ⟨dw, db, nd, ndc, e, e1, e2, e3, e4⟩ := Dense.back_total hw ht hn hs v d dc hx hd hdc
      refine ⟨(dw, db), nd, ndc, ?_, ?_, e3, e4⟩
      · rw [if_pos (show (Layer.dense l).propagates = true from rfl)]
        simp only [Layer.computeDerivatives, e, Option.bind_eq_bind, Option.bind_some, unwrap,
          Option.map_some]
      · rw [if_pos (show (Layer.dense l).propagates = true from rfl)]
        simp only [Layer.paramsLen, Dense.paramsLen, hw.2, hs]
        exact ⟨e1, e2⟩
  | conv l =>
    cases s <;> cases s' <;> try exact h.elim
    rename_i n r c nf r' c'
    cases x with
    | scalar => exact hx.elim
    | matrix maps =>
      obtain ⟨hn, hnf, hs, p, q, hk, hp, hpr, hq, hqc, rfl, rfl⟩ := h
      obtain ⟨dw, db, nd, ndc, e, e1, e2, e3, e4⟩ := Conv.back_total hw ht hn hnf hs hk hp hpr hq hqc
        hx d dc hd hdc
      refine ⟨(dw, db), nd, ndc, ?_, ?_, e3, e4⟩
      · rw [if_pos (show (Layer.conv l).propagates = true from rfl)]
        simp only [Layer.computeDerivatives, e, Option.bind_eq_bind, Option.bind_some, unwrap,
          Option.map_some]
      · rw [if_pos (show (Layer.conv l).propagates = true from rfl)]
        simp only [Layer.paramsLen, Conv.paramsLen_eq hw hs hk]
        exact ⟨e1, e2⟩
  | reduce l =>
    cases s <;> cases s' <;> try exact h.elim
    rename_i n r c n' r' c'
    cases x with
    | scalar => exact hx.elim
    | matrix maps =>
      obtain ⟨rfl, hn, hr, hc, hp, hq, rfl, rfl⟩ := h
      obtain ⟨nd, ndc, e, e1, e2⟩ := Reduce.back_total ht hn hr hc hp hq hx d dc hd hdc
      refine ⟨([], []), nd, ndc, ?_, ?_, e1, e2⟩
      · rw [if_pos (show (Layer.reduce l).propagates = true from rfl)]
        simp only [Layer.computeDerivatives, e, Option.bind_eq_bind, Option.bind_some, unwrap,
          Option.map_some]
      · rw [if_pos (show (Layer.reduce l).propagates = true from rfl)]
        simp [Layer.paramsLen, Reduce.paramsLen]
  | flatten l =>
    cases s <;> cases s' <;> try exact h.elim
    rename_i n r c u
    obtain ⟨-, rfl⟩ := h
    exact ⟨([], []), d, dc, rfl, rfl, hd, hdc⟩

/-! ## The backward pass -/

/-- The pairs of the backward pass fit, last layer first. -/
inductive BackFits [CplxOps α P] : List (IOType α × Layer α) → Size → Prop
  | nil (s : Size) : BackFits [] s
  | cons {x : IOType α} {l : Layer α} {rest : List (IOType α × Layer α)} {s s' : Size} (hw : l.WF)
      (ht : l.TotalBack) (h : l.Fits s s') (hx : x.HasSize s) (t : BackFits rest s) :
      BackFits ((x, l) :: rest) s'

theorem BackFits.total [CplxOps α P] {rest : List (IOType α × Layer α)} {s : Size}
    (h : BackFits rest s) (d dc : List α) (hd : d.length = s.len) (hdc : dc.length = s.len) :
    ∃ gs, backGrads rest d dc = some gs ∧ List.Forall₂ (fun g p => LayerVec.Fits g (Prod.snd p)) gs rest := by
  induction h generalizing d dc with
  | nil => exact ⟨[], rfl, .nil⟩
  | cons hw ht h hx t ih =>
    obtain ⟨γ, nd, ndc, e, e1, e2, e3⟩ := Layer.back_fits hw ht h hx d dc hd hdc
    obtain ⟨gs, k1, k2⟩ := ih nd ndc e2 e3
    refine ⟨γ :: gs, ?_, .cons e1 k2⟩
    rw [backGrads_cons, e]
    simp only [Option.bind_eq_bind, Option.bind_some, k1, Option.map_some]

theorem backPairs_cons (l : Layer α) (ls : List (Layer α)) (x y : IOType α) (ys : List (IOType α))
    (h : ys.length = ls.length) :
    backPairs (l :: ls) x (y :: ys) = backPairs ls y ys ++ [(x, l)] := by
  unfold backPairs
  rw [List.reverse_cons, List.reverse_cons (a := l)]
  have hne : (y :: ys).reverse ≠ [] := by simp
  rw [List.tail_append_of_ne_nil hne, List.zip_append]
  · rfl
  · simp [h]

theorem FitsChain.backFits [CplxOps α P] {ls : List (Layer α)} {s s' : Size}
    (h : FitsChain ls s s') (hw : ∀ l ∈ ls, l.WF) (ht : ∀ l ∈ ls, l.Total)
    (hb : ∀ l ∈ ls, l.TotalBack) {x : IOType α} (hx : x.HasSize s)
    (rest : List (IOType α × Layer α)) (hr : BackFits rest s) :
    ∃ ys y, Chain ls x ys ∧ (x :: ys).getLast? = some y ∧ y.HasSize s'
      ∧ BackFits (backPairs ls x ys ++ rest) s' := by
  induction h generalizing x rest with
  | nil s => exact ⟨[], x, .nil x, rfl, hx, by simpa [backPairs] using hr⟩
  | @cons l ls s s₁ s' h t ih =>
    obtain ⟨y₁, h1, hy₁⟩ := Layer.forward_fits (hw l (by simp)) (ht l (by simp)) h hx
    obtain ⟨ys, y, h2, h3, h4, h5⟩ := ih (fun l hl => hw l (by simp [hl]))
      (fun l hl => ht l (by simp [hl])) (fun l hl => hb l (by simp [hl])) hy₁ ((x, l) :: rest)
      (.cons (hw l (by simp)) (hb l (by simp)) h hx hr)
    refine ⟨y₁ :: ys, y, .cons h1 h2, by rw [List.getLast?_cons_cons]; exact h3, h4, ?_⟩
    rw [backPairs_cons _ _ _ _ _ h2.length, List.append_assoc]
    exact h5

/-! ## One training call -/

theorem addPair_total [BasicOps α] {a g : LayerVec α} {l : Layer α} (ha : a.Fits l) (hg : g.Fits l) :
    ∃ r, addPair a g = some r ∧ LayerVec.Fits r l := by
  have h : a.1.length = g.1.length ∧ a.2.length = g.2.length := by
    unfold LayerVec.Fits at ha hg
    by_cases hp : l.propagates = true
    · rw [if_pos hp] at ha hg; exact ⟨ha.1.trans hg.1.symm, ha.2.trans hg.2.symm⟩
    · rw [if_neg hp] at ha hg; rw [ha, hg]; simp
  obtain ⟨x, h1, h2⟩ := addSliceMut_total a.1 g.1 h.1
  obtain ⟨y, h3, h4⟩ := addSliceMut_total a.2 g.2 h.2
  refine ⟨(x, y), ?_, ?_⟩
  · unfold addPair
    rw [h1, h3]
    rfl
  · unfold LayerVec.Fits at *
    by_cases hp : l.propagates = true
    · rw [if_pos hp] at *; exact ⟨h2.trans ha.1, h4.trans ha.2⟩
    · rw [if_neg hp] at *
      rw [ha] at h2 h4
      rw [List.length_eq_zero_iff.mp h2, List.length_eq_zero_iff.mp h4]

theorem addAll_total [BasicOps α] {acc gs : List (LayerVec α)} {ls : List (Layer α)}
    (ha : List.Forall₂ LayerVec.Fits acc ls) (hg : List.Forall₂ LayerVec.Fits gs ls) :
    ∃ r, ((acc.zip gs).mapM fun q => addPair q.1 q.2) = some r ∧ List.Forall₂ LayerVec.Fits r ls := by
  induction ha generalizing gs with
  | nil => cases hg; exact ⟨[], rfl, .nil⟩
  | cons h _ ih =>
    cases hg with
    | cons h' t =>
      obtain ⟨r, e1, e2⟩ := ih t
      obtain ⟨x, f1, f2⟩ := addPair_total h h'
      exact ⟨x :: r, by simp [List.zip_cons_cons, List.mapM_cons, f1, e1], .cons f2 e2⟩

section
variable [CplxOps α P]

/-- The derivatives of one sample exist and have the right lengths. -/
theorem Net.Ready.sample {n : Net α} {s s' : Size} (h : n.Ready s s') {f : LossFunc}
    (hd : ∀ t p : IOType α, t.HasSize s' → p.HasSize s' →
      ∃ d, CplxOps.dLoss f t p = .ok d ∧ d.length = s'.len)
    {p : IOType α × IOType α} (hx : p.1.HasSize s) (ht : p.2.HasSize s') :
    ∃ gs, sampleGrads n f p = some gs ∧ List.Forall₂ LayerVec.Fits gs n.layers := by
  obtain ⟨ys, y, h1, h2, h3, h4⟩ := h.fits.backFits h.wf h.total h.totalBack hx [] (.nil s)
  rw [List.append_nil] at h4
  obtain ⟨d, h5, h6⟩ := hd p.2 y ht h3
  obtain ⟨gs, h7, h8⟩ := h4.total d (d.map CplxOps.conj) h6 (by simpa using h6)
  have hne : n.layers ≠ [] := by
    intro h0
    have := h.layers
    rw [h0] at this
    simp at this
  have hacts : n.collectActs p.1 = some (.ok (p.1 :: ys)) :=
    (C44_collect n hne p.1 _).mpr ⟨ys, h1, rfl⟩
  have hl := h1.length
  refine ⟨gs.reverse, ?_, ?_⟩
  · unfold sampleGrads
    rw [hacts]
    simp only [Option.bind_eq_bind, Option.bind_some, unwrap]
    rw [List.head?_reverse, h2]
    simp only [Option.bind_some, h5]
    change Option.map _ (backGrads (backPairs n.layers p.1 ys) d (d.map CplxOps.conj)) = _
    rw [h7]; rfl
  · have : List.Forall₂ LayerVec.Fits gs n.layers.reverse := by
      refine forall₂_zip_snd' (k := (p.1 :: ys).reverse.tail) h8 ?_
      simp [hl]
    have := List.rel_reverse this
    rwa [List.reverse_reverse] at this

theorem Net.Ready.samples {n : Net α} {s s' : Size} (h : n.Ready s s') {f : LossFunc}
    (hd : ∀ t p : IOType α, t.HasSize s' → p.HasSize s' →
      ∃ d, CplxOps.dLoss f t p = .ok d ∧ d.length = s'.len)
    (pts : List (IOType α × IOType α)) (hp : ∀ p ∈ pts, p.1.HasSize s ∧ p.2.HasSize s')
    (acc : List (LayerVec α)) (ha : List.Forall₂ LayerVec.Fits acc n.layers) :
    ∃ acc', pts.foldlM (Net.sampleStep n f) acc = some acc'
      ∧ List.Forall₂ LayerVec.Fits acc' n.layers := by
  induction pts generalizing acc with
  | nil => exact ⟨acc, rfl, ha⟩
  | cons p pts ih =>
    obtain ⟨gs, h1, h2⟩ := h.sample hd (hp p (by simp)).1 (hp p (by simp)).2
    obtain ⟨r, e1, e2⟩ := addAll_total ha h2
    obtain ⟨acc', k1, k2⟩ := ih (fun p hp' => hp p (by simp [hp'])) r e2
    refine ⟨acc', ?_, k2⟩
    rw [List.foldlM_cons, Net.sampleStep_eq n f acc (ha.imp fun _ _ h => h.nonprop), h1]
    simp only [Option.bind_eq_bind, Option.bind_some, e1]
    exact k1

theorem zipKernels_shapes (upd : α → α → α) (ks : List (Mat α)) (d : List α)
    (hr : ∀ k ∈ ks, k.Rect) {s : Nat × Nat} (hs : ∀ k ∈ ks, k.shape = s) :
    ∀ k ∈ zipKernels upd ks d, k.shape = s := by
  induction ks generalizing d with
  | nil => simp [zipKernels]
  | cons k ks ih =>
    intro k' hk'
    rw [zipKernels, List.mem_cons] at hk'
    rcases hk' with rfl | hk'
    · exact hs k (by simp)
    · exact ih _ (fun k hk => hr k (by simp [hk])) (fun k hk => hs k (by simp [hk])) k' hk'

/-- Updating the parameters changes neither what a layer fits nor its functions. -/
theorem Layer.zipParams_fits (upd : α → α → α) {l : Layer α} (hw : l.WF) (g : LayerVec α) {s s' : Size}
    (h : l.Fits s s') : (l.zipParams upd g).Fits s s' := by
  cases l with
  | dense l => cases s <;> cases s' <;> first | exact h.elim | exact h
  | conv l =>
    cases s <;> cases s' <;> try exact h.elim
    obtain ⟨hn, hnf, hs, p, q, hk, h⟩ := h
    exact ⟨hn, hnf, hs, p, q, zipKernels_shapes upd _ _ hw.2.2.2.1 hk, h⟩
  | reduce l => exact h
  | flatten l => exact h

theorem Layer.zipParams_total (upd : α → α → α) {l : Layer α} (g : LayerVec α) (h : l.Total) :
    (l.zipParams upd g).Total := by cases l <;> exact h

theorem Layer.zipParams_totalBack (upd : α → α → α) {l : Layer α} (g : LayerVec α)
    (h : l.TotalBack) : (l.zipParams upd g).TotalBack := by cases l <;> exact h

theorem FitsChain.zipParams (upd : α → α → α) {ls : List (Layer α)} {s s' : Size}
    (h : FitsChain ls s s') (hw : ∀ l ∈ ls, l.WF) (gs : List (LayerVec α))
    (hl : gs.length = ls.length) :
    FitsChain (List.zipWith (Layer.zipParams upd) ls gs) s s' := by
  induction h generalizing gs with
  | nil s => exact .nil s
  | cons h t ih =>
    cases gs with
    | nil => simp at hl
    | cons g gs =>
      exact .cons (Layer.zipParams_fits upd (hw _ (by simp)) g h)
        (ih (fun l hl => hw l (by simp [hl])) gs (by simpa using hl))

theorem mem_zipWith {β γ δ : Type} {f : β → γ → δ} {l : List β} {m : List γ} {z : δ}
    (h : z ∈ List.zipWith f l m) : ∃ a ∈ l, ∃ b ∈ m, z = f a b := by
  induction l generalizing m with
  | nil => simp at h
  | cons a l ih =>
    cases m with
    | nil => simp at h
    | cons b m =>
      rw [List.zipWith_cons_cons, List.mem_cons] at h
      rcases h with rfl | h
      · exact ⟨a, by simp, b, by simp, rfl⟩
      · obtain ⟨a', ha, b', hb, rfl⟩ := ih h
        exact ⟨a', by simp [ha], b', by simp [hb], rfl⟩

/-- One training call on a network that is ready never panics and leaves it ready, in any
arithmetic. -/
theorem Net.Ready.step {n : Net α} {s s' : Size} (h : n.Ready s s') {f : LossFunc}
    (hd : ∀ t p : IOType α, t.HasSize s' → p.HasSize s' →
      ∃ d, CplxOps.dLoss f t p = .ok d ∧ d.length = s'.len)
    {data : Dataset α} (hs : data.HasSize s s') {lr scale : α}
    (hlr : BasicOps.div lr (CplxOps.ofUsize data.inputs.length) = some scale) :
    ∃ n', n.gradientOpt data f lr = some (.ok (), n') ∧ n'.Ready s s' := by
  obtain ⟨acc, h1, h2⟩ := h.samples hd data.points hs (n.layers.map Net.initAcc) (by
    rw [List.forall₂_map_left_iff, List.forall₂_same]
    exact fun l _ => Net.initAcc_fits l)
  have h3 := Net.updateAll_eq scale acc n.layers h.wf h2
  have e : n.gradientOpt data f lr = some (.ok (), ⟨List.zipWith (Layer.zipParams
        (fun p d => BasicOps.subAssign p (CplxOps.conj (BasicOps.mulAssign d scale)))) n.layers acc⟩) := by
    have := h.layers
    unfold Net.gradientOpt
    rw [if_neg (by omega)]
    simp only [Option.bind_eq_bind]
    rw [h1]
    simp only [Option.bind_some, hlr]
    rw [h3]
    rfl
  refine ⟨_, e, ?_⟩
  have hl := h2.length_eq
  refine ⟨?_, sameShape_wf (Net.gradientOpt_shape h.wf e), h.fits.zipParams _ h.wf acc hl, ?_, ?_⟩
  · have := h.layers
    simp only [List.length_zipWith]; omega
  · intro l hl
    obtain ⟨a, ha, b, -, rfl⟩ := mem_zipWith hl
    exact Layer.zipParams_total _ b (h.total a ha)
  · intro l hl
    obtain ⟨a, ha, b, -, rfl⟩ := mem_zipWith hl
    exact Layer.zipParams_totalBack _ b (h.totalBack a ha)

end

/-! ## C66 -/

/-- Both derivatives of every activation but `ModZ` are total, in any arithmetic. -/
theorem C66_total {w : Width} {R : Type} [Scalar R] (f : ActFunc) (hf : f ≠ .modZ) (z : Cf w R) :
    (∃ y, CplxOps.dActivate f z = some y) ∧ ∃ y, CplxOps.dConjActivate f z = some y := by
  cases f <;> first | exact absurd rfl hf | exact ⟨⟨_, rfl⟩, ⟨_, rfl⟩⟩

theorem dLoss_total {w : Width} {R : Type} [Scalar R] (f : LossFunc) {s : Size}
    (t p : IOType (Cf w R)) (ht : t.HasSize s) (hp : p.HasSize s) :
    ∃ d, CplxOps.dLoss f t p = .ok d ∧ d.length = s.len := by
  have hl : ∀ x : IOType (Cf w R), x.HasSize s → (scalars x).length = s.len := by
    intro x hx
    cases x with
    | scalar v =>
      cases s with
      | vec n => exact hx
      | maps => exact hx.elim
    | matrix ms =>
      cases s with
      | vec n => exact hx.elim
      | maps n r c =>
        change (ms.flatMap Mat.getBody).length = n * (r * c)
        rw [List.flatMap_def, flatten_length_const _ (r * c), List.length_map, hx.1]
        intro l hl
        obtain ⟨m, hm, rfl⟩ := List.mem_map.mp hl
        obtain ⟨h1, h2⟩ := hx.2 m hm
        rw [Mat.Rect, h2] at h1
        exact h1
  have hk : isScalar t = isScalar p := by
    cases t <;> cases p <;> cases s <;> first | rfl | exact ht.elim | exact hp.elim
  obtain ⟨g, h1, h2⟩ := ((C36_kinds f t p).2.2 hk).2
  exact ⟨g, h1, by rw [h2, hl t ht, hl p hp, Nat.min_self]⟩

/-- C66. One `gradient_opt` call on a network that is ready and a batch of fitting points, with a
learning rate that can be divided by the batch size, returns `Ok` and leaves a network that is ready
for the same sizes — in any arithmetic, so rounding, infinities and NaN cannot make it panic. -/
theorem C66_step {w : Width} {R : Type} [Scalar R] (n : Net (Cf w R)) {s s' : Size}
    (h : n.Ready s s') (data : Dataset (Cf w R)) (hs : data.HasSize s s') (f : LossFunc)
    (lr scale : Cf w R) (hlr : BasicOps.div lr (CplxOps.ofUsize data.inputs.length) = some scale) :
    ∃ n', n.gradientOpt data f lr = some (.ok (), n') ∧ n'.Ready s s' :=
  h.step (dLoss_total f) hs hlr

/-- C66, the exact condition: on fitting points the call panics if and only if the division of the
learning rate by the batch size does. -/
theorem C66_panics {w : Width} {R : Type} [Scalar R] (n : Net (Cf w R)) {s s' : Size}
    (h : n.Ready s s') (data : Dataset (Cf w R)) (hs : data.HasSize s s') (f : LossFunc)
    (lr : Cf w R) :
    n.gradientOpt data f lr = none
      ↔ BasicOps.div lr (CplxOps.ofUsize data.inputs.length) = none := by
  cases hd : BasicOps.div lr (CplxOps.ofUsize data.inputs.length) with
  | some scale =>
    obtain ⟨n', h1, -⟩ := C66_step n h data hs f lr scale hd
    simp [h1]
  | none =>
    have hl := h.layers
    simp only [iff_true]
    unfold Net.gradientOpt
    rw [if_neg (by omega)]
    simp only [Option.bind_eq_bind, hd, Option.bind_none]
    cases data.points.foldlM (Net.sampleStep n f) (n.layers.map Net.initAcc) <;> rfl

/-- C66. Any number of such calls: training never panics, and the trained network still forwards
every input of the first extent to a prediction of the last. -/
theorem C66_training {w : Width} {R : Type} [Scalar R] (n : Net (Cf w R)) {s s' : Size}
    (h : n.Ready s s') (steps : List (TrainStep (Cf w R)))
    (hs : ∀ st ∈ steps, st.1.HasSize s s'
      ∧ ∃ scale, BasicOps.div st.2.2 (CplxOps.ofUsize st.1.inputs.length) = some scale) :
    ∃ n', n.train steps = some n' ∧ n'.Ready s s'
      ∧ ∀ x : IOType (Cf w R), x.HasSize s → ∃ y, n'.forward x = some (.ok y) ∧ y.HasSize s' := by
  induction steps generalizing n with
  | nil =>
    refine ⟨n, rfl, h, fun x hx => ?_⟩
    obtain ⟨y, _, h1, h2, -⟩ := C46_sized_partial n (by
      intro h0
      have := h.layers
      rw [h0] at this
      simp at this) h.wf h.total h.fits x hx
    exact ⟨y, h1, h2⟩
  | cons st steps ih =>
    obtain ⟨h1, scale, h2⟩ := hs st (by simp)
    obtain ⟨n1, e1, e2⟩ := C66_step n h st.1 h1 st.2.1 st.2.2 scale h2
    obtain ⟨n', k1, k2, k3⟩ := ih n1 e2 fun st hst => hs st (by simp [hst])
    refine ⟨n', ?_, k2, k3⟩
    rw [Net.train, List.foldlM_cons, e1]
    exact k1

/-- C66 in exact arithmetic: the learning rate can be divided by the size of every non-empty
batch. -/
theorem C66_exact {w : Width} (n : Net (Cf w ℝ)) {s s' : Size} (h : n.Ready s s')
    (steps : List (TrainStep (Cf w ℝ))) (hs : ∀ st ∈ steps, st.1.HasSize s s' ∧ st.1.inputs ≠ []) :
    ∃ n', n.train steps = some n' ∧ n'.Ready s s' := by
  obtain ⟨n', h1, h2, -⟩ := C66_training n h steps fun st hst => by
    refine ⟨(hs st hst).1, ?_⟩
    have : st.1.inputs.length ≠ 0 := fun h0 => (hs st hst).2 (List.length_eq_zero_iff.mp h0)
    obtain ⟨q, hq, -⟩ := div_toC st.2.2 (Cf.ofUsize st.1.inputs.length)
      (by rw [Cf.toC_ofUsize]; exact_mod_cast this)
    exact ⟨q, hq⟩
  exact ⟨n', h1, h2⟩

/-- In exact arithmetic it panics exactly on the empty batch. -/
theorem C66_panics_exact {w : Width} (n : Net (Cf w ℝ)) {s s' : Size} (h : n.Ready s s')
    (data : Dataset (Cf w ℝ)) (hs : data.HasSize s s') (f : LossFunc) (lr : Cf w ℝ) :
    n.gradientOpt data f lr = none ↔ data.inputs = [] := by
  rw [C66_panics n h data hs]
  constructor
  · intro h0
    by_contra hne
    have : data.inputs.length ≠ 0 := fun h0 => hne (List.length_eq_zero_iff.mp h0)
    obtain ⟨q, hq, -⟩ := div_toC lr (Cf.ofUsize data.inputs.length)
      (by rw [Cf.toC_ofUsize]; exact_mod_cast this)
    rw [show BasicOps.div lr (CplxOps.ofUsize data.inputs.length) = some q from hq] at h0
    cases h0
  · intro h0
    rw [h0]
    exact if_pos (by simp [Cf.den, CplxOps.ofUsize, Cf.ofUsize])

/-- A small network of all four kinds of layers, in exact arithmetic: two 2×2 kernels on one 5×5
map, averages of 2×2 blocks with a 3×3 interpolation kernel, flattening and two units. -/
noncomputable def allKinds : Net (Cf .w32 ℝ) :=
  ⟨[.conv ⟨1, Mat.fromBody [Mat.fromBody [1, 0, 0, 1] (2, 2), Mat.fromBody [0, 1, 1, 0] (2, 2)] (2, 1),
      [0, 0], .ritReLU⟩,
    .reduce ⟨2, (2, 2), fun b => some (b.foldl (· + ·) 0),
      Mat.fromBody [1, 2, 1, 2, 4, 2, 1, 2, 1] (3, 3)⟩,
    .flatten (.init (2, 2) 2),
    .dense ⟨Mat.fromBody (List.replicate 16 1) (2, 8), [0, 0], .ritSigmoid⟩]⟩

theorem allKinds_ready : allKinds.Ready (.maps 1 5 5) (.vec 2) where
  layers := by simp [allKinds]
  wf := by
    simp [allKinds, Layer.WF, Mat.fromBody, Mat.Rect]
  fits := by
    refine .cons (s₁ := .maps 2 4 4) ⟨by omega, by omega, rfl, 2, 2, ?_, by omega, by omega, by omega,
      by omega, rfl, rfl⟩ (.cons (s₁ := .maps 2 2 2) ⟨rfl, rfl, by omega, by omega, by simp, by simp,
      rfl, rfl⟩ (.cons (s₁ := .vec 8) ⟨rfl, rfl⟩ (.cons (s₁ := .vec 2) ⟨by omega, rfl⟩ (.nil _))))
    simp [Mat.fromBody]
  total := by
    intro l hl
    simp only [allKinds, List.mem_cons, List.not_mem_nil, or_false] at hl
    rcases hl with rfl | rfl | rfl | rfl
    · exact fun z => C46_total _ (by simp) z
    · exact fun b _ => ⟨_, rfl⟩
    · trivial
    · exact fun z => C46_total _ (by simp) z
  totalBack := by
    intro l hl
    simp only [allKinds, List.mem_cons, List.not_mem_nil, or_false] at hl
    rcases hl with rfl | rfl | rfl | rfl
    · exact ⟨fun z => (C66_total _ (by simp) z).1, fun z => (C66_total _ (by simp) z).2⟩
    · exact ⟨rfl, rfl, by simp, by simp⟩
    · trivial
    · exact ⟨fun z => (C66_total _ (by simp) z).1, fun z => (C66_total _ (by simp) z).2⟩

/-- It can be trained twice on a batch of two zero images. -/
example (f : LossFunc) (lr : Cf .w32 ℝ) :
    let x : IOType (Cf .w32 ℝ) := .matrix [Mat.fromBody (List.replicate 25 0) (5, 5)]
    let d : Dataset (Cf .w32 ℝ) := ⟨[x, x], [.scalar [1, 0], .scalar [0, 1]]⟩
    ∃ n', allKinds.train [(d, f, lr), (d, f, lr)] = some n' ∧ n'.Ready (.maps 1 5 5) (.vec 2) := by
  intro x d
  have hx : x.HasSize (.maps 1 5 5) := by
    refine ⟨rfl, ?_⟩
    simp [Mat.fromBody, Mat.Rect]
  have hd : d.HasSize (.maps 1 5 5) (.vec 2) := by
    intro p hp
    have hp : p ∈ [(x, IOType.scalar [1, 0]), (x, IOType.scalar [0, 1])] := hp
    simp only [List.mem_cons, List.not_mem_nil, or_false] at hp
    rcases hp with rfl | rfl <;> exact ⟨hx, rfl⟩
  refine C66_exact allKinds allKinds_ready _ ?_
  intro st hst
  simp only [List.mem_cons, List.not_mem_nil, or_false, or_self] at hst
  subst hst
  exact ⟨hd, by simp [d]⟩

end Renplex
