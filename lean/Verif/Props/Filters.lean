import Verif.Spec.Filters
import Verif.Props.Corr
import Verif.Props.Hidden
import Verif.Props.ConvTangent
import Verif.Props.ReduceLaw
/-!
# C110: the filters of a convolutional layer are interchangeable
-/

namespace Renplex

section lists
variable {α : Type}

/-- One entry per kernel entry, kernel by kernel. -/
def kvec (nf n p q : Nat) (D : Nat → Nat → Nat → Nat → α) : List α :=
  (List.range nf).flatMap fun o => cube n p q (D o)

theorem kvec_length (nf n p q : Nat) (D : Nat → Nat → Nat → Nat → α) :
    (kvec nf n p q D).length = nf * n * (p * q) := by
  unfold kvec
  have : ∀ l : List Nat, (l.flatMap fun o => cube n p q (D o)).length = l.length * (n * (p * q)) := by
    intro l
    induction l with
    | nil => simp
    | cons o l ih => rw [List.flatMap_cons, List.length_append, ih, cube_length, List.length_cons,
        Nat.succ_mul, Nat.add_comm]
  rw [this, List.length_range, Nat.mul_assoc]

theorem kvec_const (nf n p q : Nat) (z : α) :
    List.replicate (nf * n * (p * q)) z = kvec nf n p q fun _ _ _ _ => z := by
  symm
  rw [List.eq_replicate_iff]
  refine ⟨kvec_length _ _ _ _ _, fun b hb => ?_⟩
  unfold kvec cube table at hb
  simp only [List.mem_flatMap, List.mem_map] at hb
  obtain ⟨_, _, _, _, _, _, _, _, rfl⟩ := hb
  rfl

theorem table_const (u m : Nat) (z : α) : List.replicate (u * m) z = table u m fun _ _ => z := by
  symm
  rw [List.eq_replicate_iff]
  refine ⟨table_length _ _ _, fun b hb => ?_⟩
  unfold table at hb
  simp only [List.mem_flatMap, List.mem_map] at hb
  obtain ⟨_, _, _, _, rfl⟩ := hb
  rfl

variable [BasicOps α]

theorem addSliceMut_eq (a b : List α) (h : a.length = b.length) :
    addSliceMut a b = .ok (List.zipWith BasicOps.addAssign a b) := by
  unfold addSliceMut
  rw [if_neg (by simpa using h), zipUpd_eq_zipWith _ _ _ h]

theorem addSliceMut_kvec (nf n p q : Nat) (D E : Nat → Nat → Nat → Nat → α) :
    addSliceMut (kvec nf n p q D) (kvec nf n p q E)
      = .ok (kvec nf n p q fun o ch a b => BasicOps.addAssign (D o ch a b) (E o ch a b)) := by
  rw [addSliceMut_eq _ _ (by rw [kvec_length, kvec_length])]
  unfold kvec
  rw [zipWith_flatMap _ _ _ _ (by simp [cube_length])]
  simp only [cube_zipWith]

theorem addSliceMut_units (u : Nat) (e e' : Nat → α) :
    addSliceMut ((List.range u).map e) ((List.range u).map e')
      = .ok ((List.range u).map fun o => BasicOps.addAssign (e o) (e' o)) := by
  rw [addSliceMut_eq _ _ (by simp), List.zipWith_map, List.zipWith_self]

theorem addSliceMut_table (u m : Nat) (A B : Nat → Nat → α) :
    addSliceMut (table u m A) (table u m B)
      = .ok (table u m fun j i => BasicOps.addAssign (A j i) (B j i)) := by
  rw [addSliceMut_eq _ _ (by simp [table_length]), table_zipWith]

end lists

/-! ## Blocks of a flattened vector -/

section flat
variable {α : Type}

theorem cube_flat (n r c : Nat) (F : Nat → Nat → Nat → α) :
    cube n r c F = (List.range (n * (r * c))).map (flatOf r c F) := by
  rw [range_map_cube]
  exact cube_congr fun o _ i hi j hj => (flatOf_idx F o hi hj).symm

theorem flatOf_perm (σ : Nat → Nat) {n r c : Nat} (F : Nat → Nat → Nat → α) {k : Nat}
    (hk : k < n * (r * c)) :
    flatOf r c (fun o => F (σ o)) k = flatOf r c F (blockPerm σ (r * c) k) := by
  have hs : 0 < r * c := by
    rcases Nat.eq_zero_or_pos (r * c) with h | h
    · rw [h] at hk; simp at hk
    · exact h
  have hm := Nat.mod_lt k hs
  unfold flatOf blockPerm
  have h1 : (σ (k / (r * c)) * (r * c) + k % (r * c)) / (r * c) = σ (k / (r * c)) := by
    rw [Nat.mul_comm, Nat.mul_add_div hs, Nat.div_eq_of_lt hm, Nat.add_zero]
  have h2 : (σ (k / (r * c)) * (r * c) + k % (r * c)) % (r * c) = k % (r * c) := by
    rw [Nat.mul_comm, Nat.mul_add_mod, Nat.mod_eq_of_lt hm]
  rw [h1, h2]

theorem sum_blockPerm [AddCommMonoid α] {σ : Equiv.Perm Nat} {n : Nat} (hσ : ∀ j, σ j < n ↔ j < n)
    (r c : Nat) (F : Nat → α) :
    ∑ k ∈ Finset.range (n * (r * c)), F (blockPerm σ (r * c) k)
      = ∑ k ∈ Finset.range (n * (r * c)), F k := by
  rw [sum_cube, sum_cube]
  rw [← Finset.sum_equiv σ (s := Finset.range n) (t := Finset.range n)
    (f := fun o => ∑ i ∈ Finset.range r, ∑ j ∈ Finset.range c, F (σ o * (r * c) + (i * c + j)))
    (g := fun o => ∑ i ∈ Finset.range r, ∑ j ∈ Finset.range c, F (o * (r * c) + (i * c + j)))
    (by simp [hσ]) (fun _ _ => rfl)]
  refine Finset.sum_congr rfl fun o _ => Finset.sum_congr rfl fun i hi =>
    Finset.sum_congr rfl fun j hj => ?_
  have hlt := idx_lt (Finset.mem_range.mp hi) (Finset.mem_range.mp hj)
  unfold blockPerm
  have h1 : (o * (r * c) + (i * c + j)) / (r * c) = o := by
    rw [Nat.mul_comm, Nat.mul_add_div (by omega), Nat.div_eq_of_lt hlt, Nat.add_zero]
  have h2 : (o * (r * c) + (i * c + j)) % (r * c) = i * c + j := by
    rw [Nat.mul_comm, Nat.mul_add_mod, Nat.mod_eq_of_lt hlt]
  rw [h1, h2]

end flat

variable {α P : Type}

/-- `n` maps, renumbered by `σ` on the other side. -/
def Iface.renum (α : Type) (σ : Nat → Nat) (n r c : Nat) : Iface α :=
  { feat := fun x x' => ∃ ms ms' X, x = .matrix ms ∧ x' = .matrix ms' ∧ MapsAre ms n r c X
      ∧ MapsAre ms' n r c fun ch => X (σ ch),
    back := fun d d' => ∃ G, d = cube n r c G ∧ d' = cube n r c fun ch => G (σ ch) }

/-- The same after they have been flattened. -/
def Iface.flat (α : Type) (σ : Nat → Nat) (n r c : Nat) : Iface α :=
  { feat := fun x x' => ∃ X, x = .scalar (cube n r c X) ∧ x' = .scalar (cube n r c fun ch => X (σ ch)),
    back := fun d d' => ∃ G, d = cube n r c G ∧ d' = cube n r c fun ch => G (σ ch) }

/-- An activation that never panics, nor do its derivatives. -/
def ActTotal (α : Type) {P : Type} [CplxOps α P] (f : ActFunc) : Prop :=
  (∀ z : α, ∃ y, CplxOps.activate f z = some y) ∧ (∀ z : α, ∃ y, CplxOps.dActivate f z = some y)
    ∧ ∀ z : α, ∃ y, CplxOps.dConjActivate f z = some y

section conv
variable [CplxOps α P]

/-- The forward pass of a convolutional layer, with the maps it returns. -/
theorem Conv.forward_maps {l : Conv α} {nf n p q r c : Nat}
    {K : Nat → Nat → Nat → Nat → α} {b : Nat → α} {f : ActFunc} (h : l.Is nf n p q K b f)
    (hf : 0 < nf) (hn : 0 < n) (hp : 1 ≤ p) (hpr : p ≤ r) (hq : 1 ≤ q) (hqc : q ≤ c)
    {maps : List (Mat α)} {X : Nat → Nat → Nat → α} (hX : MapsAre maps n r c X) (A : α → α)
    (hA : ∀ z, CplxOps.activate f z = some (A z)) :
    l.forward (.matrix maps) = some (.ok (.matrix ((List.range nf).map fun o => Mat.fromBody
      (table (r - p + 1) (c - q + 1) fun i j => A (convPre n p q X K b o i j))
      (r - p + 1, c - q + 1)))) := by
  have ho := Conv.outShape_is h hf hn hp hpr hq hqc hX
  obtain ⟨-, hb, hfn, M, hk, hM⟩ := h
  obtain ⟨Mx, rfl, hMx⟩ := hX.exists_fun
  unfold Conv.forward
  simp only [Option.bind_eq_bind]
  rw [ho]
  simp only [Option.bind_some, hk.1, List.length_map, List.length_range, ne_eq,
    not_true_eq_false, if_false]
  rw [C18_rows hk hn, hb]
  simp only [Option.bind_some]
  rw [zip_range_map, mapM_map', mapM_some_of _ (fun o => Mat.fromBody
    (table (r - p + 1) (c - q + 1) fun i j => A (convPre n p q X K b o i j)) (r - p + 1, c - q + 1))]
  · rfl
  · intro o ho'
    have ho' := List.mem_range.mp ho'
    simp only
    rw [Conv.feature_is hp hpr hq hqc hMx (hM o ho')]
    simp only [Option.bind_some, Mat.fromBody, activateMut, hfn]
    rw [table_mapM_some _ fun i _ j _ => hA _]
    rfl

theorem mapsAre_fromBody (n r c : Nat) (Y : Nat → Nat → Nat → α) :
    MapsAre ((List.range n).map fun o => Mat.fromBody (table r c (Y o)) (r, c)) n r c Y := by
  refine ⟨by simp, fun o m hm => ?_⟩
  rw [List.getElem?_map] at hm
  obtain ⟨o', ho', rfl⟩ := Option.map_eq_some_iff.mp hm
  have : o' = o := by
    rw [List.getElem?_eq_some_iff] at ho'
    obtain ⟨h1, h2⟩ := ho'
    simpa using h2.symm
  subst this
  exact ⟨rfl, rfl⟩

theorem Conv.Is.wf {l : Conv α} {nf n p q : Nat} {K : Nat → Nat → Nat → Nat → α} {b : Nat → α}
    {f : ActFunc} (h : l.Is nf n p q K b f) : (Layer.conv l).WF := by
  obtain ⟨h1, h2, h3, M, h4, h5⟩ := h
  have hs : ∀ k ∈ l.kernels.body, k.Rect ∧ k.shape = (p, q) := by
    intro k hk
    rw [h4.2] at hk
    unfold table at hk
    simp only [List.mem_flatMap, List.mem_map, List.mem_range] at hk
    obtain ⟨o, ho, ch, hch, rfl⟩ := hk
    exact ⟨(h5 o ho ch hch).rect, (h5 o ho ch hch).1⟩
  exact ⟨h4.rect, by rw [h4.1, h1], by rw [h2, h4.1]; simp, fun k hk => (hs k hk).1, (p, q),
    fun k hk => (hs k hk).2⟩

theorem Conv.fits_kvec {l : Conv α} {nf n p q : Nat} {K : Nat → Nat → Nat → Nat → α} {b : Nat → α}
    {f : ActFunc} (h : l.Is nf n p q K b f) (D : Nat → Nat → Nat → Nat → α) (e : Nat → α) :
    LayerVec.Fits (kvec nf n p q D, (List.range nf).map e) (.conv l) := by
  unfold LayerVec.Fits
  rw [if_pos (show (Layer.conv l).propagates = true from rfl)]
  simp only [Layer.paramsLen, Conv.paramsLen_is h]
  exact ⟨kvec_length _ _ _ _ _, by simp⟩

theorem Conv.initAcc_kvec {l : Conv α} {nf n p q : Nat} {K : Nat → Nat → Nat → Nat → α}
    {b : Nat → α} {f : ActFunc} (h : l.Is nf n p q K b f) :
    Net.initAcc (.conv l) = (kvec nf n p q fun _ _ _ _ => BasicOps.zero,
      (List.range nf).map fun _ => BasicOps.zero) := by
  unfold Net.initAcc
  rw [if_pos (show (Layer.conv l).propagates = true from rfl)]
  simp only [Layer.paramsLen, Conv.paramsLen_is h]
  rw [kvec_const, range_map_const]

theorem addPair_kvec {nf n p q : Nat} {D E : Nat → Nat → Nat → Nat → α} {e e' : Nat → α}
    {r : LayerVec α} (h : addPair (kvec nf n p q D, (List.range nf).map e)
      (kvec nf n p q E, (List.range nf).map e') = some r) :
    r = (kvec nf n p q fun o ch a b => BasicOps.addAssign (D o ch a b) (E o ch a b),
      (List.range nf).map fun o => BasicOps.addAssign (e o) (e' o)) := by
  unfold addPair at h
  rw [addSliceMut_kvec, addSliceMut_units] at h
  cases h
  rfl

variable [CommRing α] [LawfulOps α]

/-- Renumbering channels and filters renumbers the pre-activations. -/
theorem convPre_perm {σ τ : Equiv.Perm Nat} {n : Nat} (hτ : ∀ j, τ j < n ↔ j < n) (p q : Nat)
    (X : Nat → Nat → Nat → α) (K : Nat → Nat → Nat → Nat → α) (b : Nat → α) (o i j : Nat) :
    convPre n p q (fun ch => X (τ ch)) (fun o ch => K (σ o) (τ ch)) (fun o => b (σ o)) o i j
      = convPre n p q X K b (σ o) i j := by
  rw [convPre_sum, convPre_sum]
  congr 1
  exact sum_perm hτ fun ch => ∑ a ∈ Finset.range p, ∑ b ∈ Finset.range q,
    X ch (i + a) (j + b) * K (σ o) ch a b

/-- The backward step of a convolutional layer. -/
theorem Conv.back_is {l : Conv α} {nf n p q r c : Nat}
    {K : Nat → Nat → Nat → Nat → α} {b : Nat → α} {f : ActFunc} (h : l.Is nf n p q K b f)
    (hf : 0 < nf) (hn : 0 < n) (hp : 1 ≤ p) (hpr : p ≤ r) (hq : 1 ≤ q) (hqc : q ≤ c)
    {maps : List (Mat α)} {X : Nat → Nat → Nat → α} (hX : MapsAre maps n r c X)
    (G GC : Nat → Nat → Nat → α) (D DC : α → α) (hD : ∀ z, CplxOps.dActivate f z = some (D z))
    (hDC : ∀ z, CplxOps.dConjActivate f z = some (DC z)) :
    (Layer.conv l).back (.matrix maps) (cube nf (r - p + 1) (c - q + 1) G)
        (cube nf (r - p + 1) (c - q + 1) GC)
      = some ((kvec nf n p q fun o ch => kernelGrad (r - p + 1) (c - q + 1) (X ch) (fun i j =>
            D (convPre n p q X K b o i j) * G o i j
              + CplxOps.conj (DC (convPre n p q X K b o i j)) * GC o i j),
          (List.range nf).map fun o => ∑ i ∈ Finset.range (r - p + 1), ∑ j ∈ Finset.range (c - q + 1),
            (D (convPre n p q X K b o i j) * G o i j
              + CplxOps.conj (DC (convPre n p q X K b o i j)) * GC o i j)),
          cube n r c fun ch i j => ∑ o ∈ Finset.range nf, inputGrad (r - p + 1) (c - q + 1) p q
            (fun i j => D (convPre n p q X K b o i j) * G o i j) (K o ch) i j,
          cube n r c fun ch i j => ∑ o ∈ Finset.range nf, inputGrad (r - p + 1) (c - q + 1) p q
            (fun i j => CplxOps.conj (DC (convPre n p q X K b o i j)) * GC o i j) (K o ch) i j) := by
  unfold Layer.back
  rw [if_pos (show (Layer.conv l).propagates = true from rfl)]
  have := Conv.computeDerivatives_is h hf hn hp hpr hq hqc hX G GC
    (fun o i j => D (convPre n p q X K b o i j)) (fun o i j => DC (convPre n p q X K b o i j))
    (fun _ _ _ _ _ _ => hD _) (fun _ _ _ _ _ _ => hDC _)
  simp only [Layer.computeDerivatives, this, Option.bind_eq_bind, Option.bind_some, unwrap,
    Option.map_some]
  rfl

/-- A convolutional layer whose filters are renumbered. -/
def Kind.filters (σ : Equiv.Perm Nat) (nf n p q r c : Nat) (hσ : ∀ j, σ j < nf ↔ j < nf) :
    Kind α where
  rel l l' := ∃ a a' K b f, l = .conv a ∧ l' = .conv a' ∧ a.Is nf n p q K b f
    ∧ a'.Is nf n p q (fun o => K (σ o)) (fun o => b (σ o)) f ∧ ActTotal α f
    ∧ 0 < nf ∧ 0 < n ∧ 1 ≤ p ∧ p ≤ r ∧ 1 ≤ q ∧ q ≤ c
  vec g g' := ∃ D e, g = (kvec nf n p q D, (List.range nf).map e)
    ∧ g' = (kvec nf n p q fun o => D (σ o), (List.range nf).map fun o => e (σ o))
  inp := .same α (.maps n r c)
  out := .renum α σ nf (r - p + 1) (c - q + 1)
  wf := by
    rintro l l' ⟨a, a', K, b, f, rfl, rfl, h, h', -⟩
    exact ⟨h.wf, h'.wf⟩
  forward := by
    rintro l l' _ x ⟨a, a', K, b, f, rfl, rfl, h, h', ⟨hA, -⟩, hf, hn, hp, hpr, hq, hqc⟩ ⟨rfl, hx⟩
    have : Nonempty α := ⟨0⟩
    cases x with
    | scalar v => exact hx.elim
    | matrix ms =>
      obtain ⟨X, hX⟩ := MapsAre.exists_of hx
      choose A hA using hA
      refine ⟨_, _, Conv.forward_maps h hf hn hp hpr hq hqc hX A hA,
        Conv.forward_maps h' hf hn hp hpr hq hqc hX A hA, _, _, _, rfl, rfl,
        mapsAre_fromBody _ _ _ (fun o i j => A (convPre n p q X K b o i j)), ?_⟩
      exact mapsAre_fromBody _ _ _ fun o i j => A (convPre n p q X (fun o => K (σ o))
        (fun o => b (σ o)) o i j)
  backward := by
    rintro l l' _ x d d' dc dc' ⟨a, a', K, b, f, rfl, rfl, h, h', ⟨-, hD, hDC⟩, hf, hn, hp, hpr, hq,
      hqc⟩ ⟨rfl, hx⟩ ⟨G, rfl, rfl⟩ ⟨GC, rfl, rfl⟩
    have : Nonempty α := ⟨0⟩
    cases x with
    | scalar v => exact hx.elim
    | matrix ms =>
      obtain ⟨X, hX⟩ := MapsAre.exists_of hx
      choose D hD using hD
      choose DC hDC using hDC
      refine ⟨_, _, _, _, _, _, Conv.back_is h hf hn hp hpr hq hqc hX G GC D DC hD hDC,
        Conv.back_is h' hf hn hp hpr hq hqc hX _ _ D DC hD hDC, ⟨_, _, rfl, rfl⟩,
        Conv.fits_kvec h _ _, Conv.fits_kvec h' _ _, ⟨?_, cube_length _ _ _ _⟩, ?_,
        cube_length _ _ _ _⟩
      · refine cube_congr fun ch _ i _ j _ => ?_
        exact sum_perm hσ fun o => inputGrad (r - p + 1) (c - q + 1) p q
          (fun i j => D (convPre n p q X K b o i j) * G o i j) (K o ch) i j
      · refine cube_congr fun ch _ i _ j _ => ?_
        exact sum_perm hσ fun o => inputGrad (r - p + 1) (c - q + 1) p q
          (fun i j => CplxOps.conj (DC (convPre n p q X K b o i j)) * GC o i j) (K o ch) i j
  zero := by
    rintro l l' ⟨a, a', K, b, f, rfl, rfl, h, h', -⟩
    exact ⟨_, _, Conv.initAcc_kvec h, Conv.initAcc_kvec h'⟩
  add := by
    rintro a a' g g' r r' ⟨D, e, rfl, rfl⟩ ⟨E, e', rfl, rfl⟩ h h'
    exact ⟨_, _, addPair_kvec h, addPair_kvec h'⟩
  update := by
    rintro l l' g g' upd - ⟨a, a', K, b, f, rfl, rfl, h, h', ht⟩ ⟨D, e, rfl, rfl⟩ - -
    obtain ⟨m, e1, e2⟩ := Conv.move_is h upd D e
    obtain ⟨m', e1', e2'⟩ := Conv.move_is h' upd (fun o => D (σ o)) (fun o => e (σ o))
    exact ⟨m, m', _, _, f, e1, e1', e2, e2', ht⟩

/-- A convolutional layer whose channels are renumbered. -/
def Kind.channels (σ : Equiv.Perm Nat) (nf n p q r c : Nat) (hσ : ∀ j, σ j < n ↔ j < n) :
    Kind α where
  rel l l' := ∃ a a' K b f, l = .conv a ∧ l' = .conv a' ∧ a.Is nf n p q K b f
    ∧ a'.Is nf n p q (fun o ch => K o (σ ch)) b f ∧ ActTotal α f
    ∧ 0 < nf ∧ 0 < n ∧ 1 ≤ p ∧ p ≤ r ∧ 1 ≤ q ∧ q ≤ c
  vec g g' := ∃ D e, g = (kvec nf n p q D, (List.range nf).map e)
    ∧ g' = (kvec nf n p q fun o ch => D o (σ ch), (List.range nf).map e)
  inp := .renum α σ n r c
  out := .same α (.maps nf (r - p + 1) (c - q + 1))
  wf := by
    rintro l l' ⟨a, a', K, b, f, rfl, rfl, h, h', -⟩
    exact ⟨h.wf, h'.wf⟩
  forward := by
    rintro l l' x x' ⟨a, a', K, b, f, rfl, rfl, h, h', ⟨hA, -⟩, hf, hn, hp, hpr, hq, hqc⟩
      ⟨ms, ms', X, rfl, rfl, hX, hX'⟩
    choose A hA using hA
    refine ⟨_, _, Conv.forward_maps h hf hn hp hpr hq hqc hX A hA,
      Conv.forward_maps h' hf hn hp hpr hq hqc hX' A hA, ?_, (mapsAre_fromBody _ _ _ _).hasSize⟩
    have hpre := fun o i j => convPre_perm (σ := Equiv.refl Nat) hσ p q X K b o i j
    simp only [Equiv.refl_apply] at hpre
    simp only [hpre]
  backward := by
    rintro l l' x x' d d' dc dc' ⟨a, a', K, b, f, rfl, rfl, h, h', ⟨-, hD, hDC⟩, hf, hn, hp, hpr, hq,
      hqc⟩ ⟨ms, ms', X, rfl, rfl, hX, hX'⟩ ⟨rfl, hd⟩ ⟨rfl, hdc⟩
    have : Nonempty α := ⟨0⟩
    obtain ⟨G, rfl⟩ := exists_cube _ _ _ _ hd
    obtain ⟨GC, rfl⟩ := exists_cube _ _ _ _ hdc
    choose D hD using hD
    choose DC hDC using hDC
    have hpre := fun o i j => convPre_perm (σ := Equiv.refl Nat) hσ p q X K b o i j
    simp only [Equiv.refl_apply] at hpre
    have e1 := Conv.back_is h hf hn hp hpr hq hqc hX G GC D DC hD hDC
    have e2 := Conv.back_is h' hf hn hp hpr hq hqc hX' G GC D DC hD hDC
    simp only [hpre] at e2
    exact ⟨_, _, _, _, _, _, e1, e2, ⟨_, _, rfl, rfl⟩, Conv.fits_kvec h _ _, Conv.fits_kvec h' _ _,
      ⟨_, rfl, rfl⟩, _, rfl, rfl⟩
  zero := by
    rintro l l' ⟨a, a', K, b, f, rfl, rfl, h, h', -⟩
    exact ⟨_, _, Conv.initAcc_kvec h, Conv.initAcc_kvec h'⟩
  add := by
    rintro a a' g g' r r' ⟨D, e, rfl, rfl⟩ ⟨E, e', rfl, rfl⟩ h h'
    exact ⟨_, _, addPair_kvec h, addPair_kvec h'⟩
  update := by
    rintro l l' g g' upd - ⟨a, a', K, b, f, rfl, rfl, h, h', ht⟩ ⟨D, e, rfl, rfl⟩ - -
    obtain ⟨m, e1, e2⟩ := Conv.move_is h upd D e
    obtain ⟨m', e1', e2'⟩ := Conv.move_is h' upd (fun o ch => D o (σ ch)) e
    exact ⟨m, m', _, _, f, e1, e1', e2, e2', ht⟩

/-! ## Pooling, flattening, dense layers -/

omit [CommRing α] [LawfulOps α] in
/-- The backward step of a pooling layer. -/
theorem Reduce.back_is {l : Reduce α} {p q : Nat} (hs : l.blockSize = (p, q))
    {k : Nat → Nat → α} (hk : l.interpKernel.Is 3 3 k) (hp : 0 < p) (hq : 0 < q)
    (hodd : q % 2 = 1 → (p - 1) / 2 < q) {n r c : Nat} (hn : 0 < n) (hr : 0 < r) (hc : 0 < c)
    (G GC : Nat → Nat → Nat → α) {maps : List (Mat α)} {X : Nat → Nat → Nat → α}
    (hX : MapsAre maps n (r * p) (c * q) X) :
    (Layer.reduce l).back (.matrix maps) (cube n r c G) (cube n r c GC)
      = some (([], []), cube n (r * p) (c * q) fun o => upMap r c p q k (G o),
        cube n (r * p) (c * q) fun o => upMap r c p q k (GC o)) := by
  unfold Layer.back
  rw [if_pos (show (Layer.reduce l).propagates = true from rfl)]
  simp only [Layer.computeDerivatives, Reduce.computeDerivatives_is hs hk hp hq hodd hn hr hc G GC
    maps hX.1 (fun m hm => (hX.hasSize.2 m hm).2), Option.bind_eq_bind, Option.bind_some, unwrap,
    Option.map_some]

omit [CommRing α] [LawfulOps α] in
theorem addPair_nil {r : LayerVec α} (h : addPair (([], []) : LayerVec α) ([], []) = some r) :
    r = ([], []) := by
  have : addPair (([], []) : LayerVec α) ([], []) = some ([], []) := rfl
  rw [this] at h
  exact (Option.some.inj h).symm

/-- A pooling layer between renumbered maps. -/
def Kind.pool (σ : Equiv.Perm Nat) (n r c p q : Nat) : Kind α where
  rel l l' := ∃ a, l = .reduce a ∧ l' = .reduce a ∧ a.blockSize = (p, q)
    ∧ (Layer.reduce a).Total ∧ (Layer.reduce a).TotalBack ∧ 0 < n ∧ 0 < r ∧ 0 < c ∧ 0 < p ∧ 0 < q
  vec g g' := g = ([], []) ∧ g' = ([], [])
  inp := .renum α σ n (r * p) (c * q)
  out := .renum α σ n r c
  wf := by rintro l l' ⟨a, rfl, rfl, -⟩; exact ⟨trivial, trivial⟩
  forward := by
    rintro l l' x x' ⟨a, rfl, rfl, hs, ht, -, hn, hr, hc, hp, hq⟩ ⟨ms, ms', X, rfl, rfl, hX, hX'⟩
    have : Nonempty α := ⟨0⟩
    have ht' : ∀ b : List α, ∃ y, b.length = p * q → a.blockFunc b = some y := by
      intro b
      by_cases hb : b.length = p * q
      · obtain ⟨y, hy⟩ := ht b (by rw [hs]; exact hb)
        exact ⟨y, fun _ => hy⟩
      · exact ⟨0, fun h => absurd h hb⟩
    choose B hB using ht'
    have hlen : ∀ (Z : Nat → Nat → Nat → α) (ch i j : Nat), ((List.range p).flatMap fun a =>
        (List.range q).map fun b => Z ch (i * p + a) (j * q + b)).length = p * q := fun Z ch i j =>
      table_length p q fun a b => Z ch (i * p + a) (j * q + b)
    obtain ⟨o, e1, e2⟩ := C41_reduce hs hp hq hr hc hX
      (Y := fun ch i j => B ((List.range p).flatMap fun a => (List.range q).map fun b =>
        X ch (i * p + a) (j * q + b))) (fun ch _ i _ j _ => hB _ (hlen X ch i j))
    obtain ⟨o', e1', e2'⟩ := C41_reduce hs hp hq hr hc hX'
      (Y := fun ch i j => B ((List.range p).flatMap fun a => (List.range q).map fun b =>
        X (σ ch) (i * p + a) (j * q + b))) (fun ch _ i _ j _ => hB _ (hlen X (σ ch) i j))
    exact ⟨_, _, e1, e1', o, o', _, rfl, rfl, e2, e2'⟩
  backward := by
    rintro l l' x x' d d' dc dc' ⟨a, rfl, rfl, hs, -, ⟨hk, hks, hodd, -⟩, hn, hr, hc, hp, hq⟩
      ⟨ms, ms', X, rfl, rfl, hX, hX'⟩ ⟨G, rfl, rfl⟩ ⟨GC, rfl, rfl⟩
    have : Nonempty α := ⟨0⟩
    obtain ⟨k, hk⟩ := Mat.Rect.exists_is hk
    rw [hks] at hk
    rw [hs] at hodd
    have hfit : LayerVec.Fits (([], []) : LayerVec α) (.reduce a) := by
      unfold LayerVec.Fits
      rw [if_pos (show (Layer.reduce a).propagates = true from rfl)]
      exact ⟨rfl, rfl⟩
    exact ⟨_, _, _, _, _, _, Reduce.back_is hs hk hp hq hodd hn hr hc G GC hX,
      Reduce.back_is hs hk hp hq hodd hn hr hc _ _ hX', ⟨rfl, rfl⟩, hfit, hfit,
      ⟨fun o => upMap r c p q k (G o), rfl, rfl⟩, fun o => upMap r c p q k (GC o), rfl, rfl⟩
  zero := by
    rintro l l' ⟨a, rfl, rfl, -⟩
    exact ⟨rfl, rfl⟩
  add := by
    rintro a a' g g' r r' ⟨rfl, rfl⟩ ⟨rfl, rfl⟩ h h'
    exact ⟨addPair_nil h, addPair_nil h'⟩
  update := by
    rintro l l' g g' upd - ⟨a, rfl, rfl, h⟩ - - -
    exact ⟨a, rfl, rfl, h⟩

/-- A `Flatten` layer after renumbered maps. -/
def Kind.flatten (σ : Equiv.Perm Nat) (n r c : Nat) : Kind α where
  rel l l' := ∃ a : Flatten, l = .flatten a ∧ l' = .flatten a ∧ a.inputSize = ((r, c), n)
  vec g g' := g = ([], []) ∧ g' = ([], [])
  inp := .renum α σ n r c
  out := .flat α σ n r c
  wf := by rintro l l' ⟨a, rfl, rfl, -⟩; exact ⟨trivial, trivial⟩
  forward := by
    rintro l l' x x' ⟨a, rfl, rfl, -⟩ ⟨ms, ms', X, rfl, rfl, hX, hX'⟩
    exact ⟨_, _, C41_flatten (l := a) hX, C41_flatten (l := a) hX', X, rfl, rfl⟩
  backward := by
    rintro l l' x x' d d' dc dc' ⟨a, rfl, rfl, -⟩ - ⟨G, rfl, rfl⟩ ⟨GC, rfl, rfl⟩
    exact ⟨_, _, _, _, _, _, rfl, rfl, ⟨rfl, rfl⟩, rfl, rfl, ⟨G, rfl, rfl⟩, GC, rfl, rfl⟩
  zero := by
    rintro l l' ⟨a, rfl, rfl, -⟩
    exact ⟨rfl, rfl⟩
  add := by
    rintro a a' g g' r r' ⟨rfl, rfl⟩ ⟨rfl, rfl⟩ h h'
    exact ⟨addPair_nil h, addPair_nil h'⟩
  update := by
    rintro l l' g g' upd - ⟨a, rfl, rfl, h⟩ - - -
    exact ⟨a, rfl, rfl, h⟩

omit [CommRing α] [LawfulOps α] in
theorem addPair_dense {u m : Nat} {A B : Nat → Nat → α} {e e' : Nat → α}
    {r : LayerVec α} (h : addPair (table u m A, (List.range u).map e)
      (table u m B, (List.range u).map e') = some r) :
    r = (table u m fun j i => BasicOps.addAssign (A j i) (B j i),
      (List.range u).map fun o => BasicOps.addAssign (e o) (e' o)) := by
  unfold addPair at h
  rw [addSliceMut_table, addSliceMut_units] at h
  cases h
  rfl

/-- The backward step of a dense layer. -/
theorem Dense.back_is {l : Dense α} {u n : Nat} {W : Nat → Nat → α} {b : Nat → α} {f : ActFunc}
    (h : l.Is u n W b f) (hn : 0 < n) (x g gc : Nat → α) (D DC : α → α)
    (hD : ∀ z, CplxOps.dActivate f z = some (D z))
    (hDC : ∀ z, CplxOps.dConjActivate f z = some (DC z)) (mid : Nat → α)
    (hmid : ∀ j, mid j = D ((∑ i ∈ Finset.range n, W j i * x i) + b j) * g j
      + CplxOps.conj (DC ((∑ i ∈ Finset.range n, W j i * x i) + b j)) * gc j) :
    (Layer.dense l).back (.scalar ((List.range n).map x)) ((List.range u).map g)
        ((List.range u).map gc)
      = some ((table u n fun j i => x i * mid j, (List.range u).map mid),
          (List.range n).map fun i => ∑ j ∈ Finset.range u, W j i * mid j,
          (List.range n).map fun i => CplxOps.conj (∑ j ∈ Finset.range u, W j i * mid j)) := by
  unfold Layer.back
  rw [if_pos (show (Layer.dense l).propagates = true from rfl)]
  have := Dense.computeDerivatives_is h hn x g gc
    (fun j => D ((∑ i ∈ Finset.range n, W j i * x i) + b j))
    (fun j => DC ((∑ i ∈ Finset.range n, W j i * x i) + b j)) (fun _ _ => hD _) (fun _ _ => hDC _)
  simp only [← hmid] at this
  simp only [Layer.computeDerivatives, this, Option.bind_eq_bind, Option.bind_some, unwrap,
    Option.map_some, List.map_map]
  rfl

omit [CommRing α] [LawfulOps α] in
theorem Dense.Is.wf_of {l : Dense α} {u n : Nat} {W : Nat → Nat → α} {b : Nat → α} {f : ActFunc}
    (h : l.Is u n W b f) : (Layer.dense l).WF :=
  ⟨h.1.rect, by rw [h.2.1, h.1.1]; simp⟩

omit [CommRing α] [LawfulOps α] in
theorem Dense.fits_table {l : Dense α} {u n : Nat} {W : Nat → Nat → α} {b : Nat → α} {f : ActFunc}
    (h : l.Is u n W b f) (A : Nat → Nat → α) (e : Nat → α) :
    LayerVec.Fits (table u n A, (List.range u).map e) (.dense l) := by
  unfold LayerVec.Fits
  rw [if_pos (show (Layer.dense l).propagates = true from rfl)]
  simp only [Layer.paramsLen, Dense.paramsLen, h.1.1, h.2.1, List.length_map, List.length_range]
  exact ⟨table_length _ _ _, trivial⟩

omit [CommRing α] [LawfulOps α] in
theorem Dense.initAcc_table {l : Dense α} {u n : Nat} {W : Nat → Nat → α} {b : Nat → α}
    {f : ActFunc} (h : l.Is u n W b f) :
    Net.initAcc (.dense l) = (table u n fun _ _ => BasicOps.zero,
      (List.range u).map fun _ => BasicOps.zero) := by
  unfold Net.initAcc
  rw [if_pos (show (Layer.dense l).propagates = true from rfl)]
  simp only [Layer.paramsLen, Dense.paramsLen, h.1.1, h.2.1, List.length_map, List.length_range]
  rw [table_const, range_map_const]

/-- A dense layer whose blocks of columns are renumbered. -/
def Kind.columns (σ : Equiv.Perm Nat) (u n r c : Nat) (hσ : ∀ j, σ j < n ↔ j < n) : Kind α where
  rel l l' := ∃ a a' V b f, l = .dense a ∧ l' = .dense a' ∧ a.Is u (n * (r * c)) V b f
    ∧ a'.Is u (n * (r * c)) (fun j i => V j (blockPerm σ (r * c) i)) b f ∧ ActTotal α f
    ∧ 0 < n * (r * c)
  vec g g' := ∃ A e, g = (table u (n * (r * c)) A, (List.range u).map e)
    ∧ g' = (table u (n * (r * c)) fun j i => A j (blockPerm σ (r * c) i), (List.range u).map e)
  inp := .flat α σ n r c
  out := .same α (.vec u)
  wf := by
    rintro l l' ⟨a, a', V, b, f, rfl, rfl, h, h', -⟩
    exact ⟨h.wf_of, h'.wf_of⟩
  forward := by
    rintro l l' x x' ⟨a, a', V, b, f, rfl, rfl, h, h', ⟨hA, -⟩, hn⟩ ⟨X, rfl, rfl⟩
    choose A hA using hA
    refine ⟨.scalar ((List.range u).map fun j => A ((∑ i ∈ Finset.range (n * (r * c)),
      V j i * flatOf r c X i) + b j)), _, ?_, ?_, rfl, by simp [IOType.HasSize]⟩
    · rw [cube_flat]
      exact C38_forward_exact_partial h hn _ _ fun j _ => hA _
    · rw [cube_flat]
      refine C38_forward_exact_partial h' hn _ _ fun j _ => ?_
      rw [hA]
      congr 3
      rw [← sum_blockPerm hσ r c fun i => V j i * flatOf r c X i]
      refine Finset.sum_congr rfl fun i hi => ?_
      rw [flatOf_perm _ _ (Finset.mem_range.mp hi)]
  backward := by
    rintro l l' x x' d d' dc dc' ⟨a, a', V, b, f, rfl, rfl, h, h', ⟨-, hD, hDC⟩, hn⟩ ⟨X, rfl, rfl⟩
      ⟨rfl, hd⟩ ⟨rfl, hdc⟩
    have : Nonempty α := ⟨0⟩
    obtain ⟨g, hg⟩ := exists_range_map d'
    obtain ⟨gc, hgc⟩ := exists_range_map dc'
    rw [hd] at hg
    rw [hdc] at hgc
    simp only [Size.len] at hg hgc
    subst hg hgc
    choose D hD using hD
    choose DC hDC using hDC
    have hpre : ∀ j, ∑ i ∈ Finset.range (n * (r * c)), V j (blockPerm σ (r * c) i)
        * flatOf r c (fun ch => X (σ ch)) i
        = ∑ i ∈ Finset.range (n * (r * c)), V j i * flatOf r c X i := by
      intro j
      rw [← sum_blockPerm hσ r c fun i => V j i * flatOf r c X i]
      refine Finset.sum_congr rfl fun i hi => ?_
      rw [flatOf_perm _ _ (Finset.mem_range.mp hi)]
    obtain ⟨mid, hmid⟩ : ∃ mid : Nat → α, ∀ j, mid j
        = D ((∑ i ∈ Finset.range (n * (r * c)), V j i * flatOf r c X i) + b j) * g j
        + CplxOps.conj (DC ((∑ i ∈ Finset.range (n * (r * c)), V j i * flatOf r c X i) + b j)) * gc j :=
      ⟨_, fun _ => rfl⟩
    have e1 := Dense.back_is h hn (flatOf r c X) g gc D DC hD hDC mid hmid
    have e2 := Dense.back_is h' hn (flatOf r c fun ch => X (σ ch)) g gc D DC hD hDC mid
      fun j => by rw [hpre]; exact hmid j
    rw [← cube_flat] at e1 e2
    have hflat : ∀ F : Nat → α, ∃ G, (List.range (n * (r * c))).map F = cube n r c G
        ∧ (List.range (n * (r * c))).map (fun i => F (blockPerm σ (r * c) i))
          = cube n r c fun ch => G (σ ch) := by
      intro F
      refine ⟨fun o i j => F (o * (r * c) + (i * c + j)), range_map_cube _ _ _ _, ?_⟩
      rw [range_map_cube]
      refine cube_congr fun o _ i hi j hj => ?_
      unfold blockPerm
      have hlt := idx_lt hi hj
      have h1 : (o * (r * c) + (i * c + j)) / (r * c) = o := by
        rw [Nat.mul_comm, Nat.mul_add_div (by omega), Nat.div_eq_of_lt hlt, Nat.add_zero]
      have h2 : (o * (r * c) + (i * c + j)) % (r * c) = i * c + j := by
        rw [Nat.mul_comm, Nat.mul_add_mod, Nat.mod_eq_of_lt hlt]
      rw [h1, h2]
    refine ⟨_, _, _, _, _, _, e1, e2, ⟨_, _, rfl, ?_⟩, Dense.fits_table h _ _, Dense.fits_table h' _ _,
      hflat fun i => ∑ j ∈ Finset.range u, V j i * mid j,
      hflat fun i => CplxOps.conj (∑ j ∈ Finset.range u, V j i * mid j)⟩
    rw [Prod.mk.injEq]
    exact ⟨table_congr fun j _ i hi => by rw [flatOf_perm _ _ hi], rfl⟩
  zero := by
    rintro l l' ⟨a, a', V, b, f, rfl, rfl, h, h', -⟩
    exact ⟨_, _, Dense.initAcc_table h, Dense.initAcc_table h'⟩
  add := by
    rintro a a' g g' r r' ⟨A, e, rfl, rfl⟩ ⟨B, e', rfl, rfl⟩ h h'
    exact ⟨_, _, addPair_dense h, addPair_dense h'⟩
  update := by
    rintro l l' g g' upd - ⟨a, a', V, b, f, rfl, rfl, h, h', ht⟩ ⟨A, e, rfl, rfl⟩ - -
    obtain ⟨m, e1, e2⟩ := Dense.zipParams_is h (A := A) (s := e) upd
    obtain ⟨m', e1', e2'⟩ := Dense.zipParams_is h' (A := fun j i => A j (blockPerm σ (r * c) i))
      (s := e) upd
    exact ⟨m, m', _, _, f, e1, e1', e2, e2', ht⟩

end conv

end Renplex
