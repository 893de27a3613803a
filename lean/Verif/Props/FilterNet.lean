import Verif.Props.Filters
/-!
# C110: networks with renumbered filters
-/

namespace Renplex

section
variable {α : Type}

theorem FitsChain.split {a b : List (Layer α)} {s t : Size} (h : FitsChain (a ++ b) s t) :
    ∃ u, FitsChain a s u ∧ FitsChain b u t := by
  induction a generalizing s with
  | nil => exact ⟨s, .nil s, h⟩
  | cons l a ih =>
    cases h with
    | cons h1 h2 =>
      obtain ⟨u, h3, h4⟩ := ih h2
      exact ⟨u, .cons h1 h3, h4⟩

theorem FitsChain.join {a b : List (Layer α)} {s t v : Size} (h : FitsChain a s t)
    (h' : FitsChain b t v) : FitsChain (a ++ b) s v := by
  induction h with
  | nil => exact h'
  | cons h _ ih => exact .cons h (ih h')

/-- What the extents a convolutional layer fits say about its own. -/
theorem Conv.fits_dims {l : Conv α} {nf n p q : Nat} {K : Nat → Nat → Nat → Nat → α} {b : Nat → α}
    {f : ActFunc} (h : l.Is nf n p q K b f) {s s' : Size} :
    (Layer.conv l).Fits s s' ↔ ∃ r c, s = .maps n r c ∧ s' = .maps nf (r - p + 1) (c - q + 1)
      ∧ 0 < nf ∧ 0 < n ∧ 1 ≤ p ∧ p ≤ r ∧ 1 ≤ q ∧ q ≤ c := by
  obtain ⟨h1, h2, h3, M, h4, h5⟩ := h
  constructor
  · intro hf
    cases s <;> cases s' <;> try exact hf.elim
    rename_i m r c nf' r' c'
    obtain ⟨hm, hnf, hs, p', q', hk, a1, a2, a3, a4, rfl, rfl⟩ := hf
    rw [h4.1, Prod.mk.injEq] at hs
    obtain ⟨rfl, rfl⟩ := hs
    have := hk (M 0 0) (by
      rw [h4.2]
      exact List.mem_iff_getElem?.mpr ⟨_, table_getElem? _ _ M hnf hm⟩)
    rw [(h5 0 hnf 0 hm).1, Prod.mk.injEq] at this
    obtain ⟨rfl, rfl⟩ := this
    exact ⟨r, c, rfl, rfl, hnf, hm, a1, a2, a3, a4⟩
  · rintro ⟨r, c, rfl, rfl, hnf, hn, a1, a2, a3, a4⟩
    refine ⟨hn, hnf, h4.1, p, q, ?_, a1, a2, a3, a4, rfl, rfl⟩
    intro k hk
    rw [h4.2] at hk
    unfold table at hk
    simp only [List.mem_flatMap, List.mem_map, List.mem_range] at hk
    obtain ⟨o, ho, ch, hch, rfl⟩ := hk
    exact (h5 o ho ch hch).1

theorem Dense.fits_dims {l : Dense α} {u n : Nat} {W : Nat → Nat → α} {b : Nat → α} {f : ActFunc}
    (h : l.Is u n W b f) {s s' : Size} :
    (Layer.dense l).Fits s s' ↔ s = .vec n ∧ s' = .vec u ∧ 0 < n := by
  constructor
  · intro hf
    cases s <;> cases s' <;> try exact hf.elim
    obtain ⟨hn, hs⟩ := hf
    rw [h.1.1, Prod.mk.injEq] at hs
    obtain ⟨rfl, rfl⟩ := hs
    exact ⟨rfl, rfl, hn⟩
  · rintro ⟨rfl, rfl, hn⟩
    exact ⟨hn, h.1.1⟩

end

section corr
variable {α P : Type} [CplxOps α P] {S : α → Prop}

theorem Corr.append {I M O : Iface α} {ks ks2 : List (KindOn α S)} {a a' b b' : List (Layer α)}
    (h : Corr I ks a a' M) (h' : Corr M ks2 b b' O) :
    Corr I (ks ++ ks2) (a ++ b) (a' ++ b') O := by
  induction h with
  | nil => exact h'
  | cons h _ ih => exact .cons h (ih h')

theorem Corr.cons_inv {I O : Iface α} {k : KindOn α S} {ks : List (KindOn α S)} {ls ls' : List (Layer α)}
    (h : Corr I (k :: ks) ls ls' O) : ∃ l l' t t', ls = l :: t ∧ ls' = l' :: t' ∧ k.rel l l'
      ∧ Corr k.out ks t t' O := by
  cases h with
  | cons h t => exact ⟨_, _, _, _, rfl, rfl, h, t⟩

theorem Corr.nil_inv {I O : Iface α} {ls ls' : List (Layer α)} (h : Corr I ([] : List (KindOn α S)) ls ls' O) :
    ls = [] ∧ ls' = [] := by
  cases h
  exact ⟨rfl, rfl⟩

theorem Corr.append_inv {I O : Iface α} {ks ks2 : List (KindOn α S)} {ls ls' : List (Layer α)}
    (h : Corr I (ks ++ ks2) ls ls' O) : ∃ a b a' b' M, ls = a ++ b ∧ ls' = a' ++ b'
      ∧ Corr I ks a a' M ∧ Corr M ks2 b b' O ∧ a.length = ks.length := by
  induction ks generalizing I ls ls' with
  | nil => exact ⟨[], ls, [], ls', I, rfl, rfl, .nil I, h, rfl⟩
  | cons k ks ih =>
    cases h with
    | cons h t =>
      obtain ⟨a, b, a', b', M, rfl, rfl, h1, h2, h3⟩ := ih t
      exact ⟨_ :: a, b, _ :: a', b', M, rfl, rfl, .cons h h1, h2, by simp [h3]⟩

/-- All kinds of a list are the identity. -/
def AllSame (ks : List (KindOn α S)) : Prop := ∀ k ∈ ks, ∃ s s', k = Kind.same s s'

theorem Corr.of_fits_on (S : α → Prop) {ls : List (Layer α)} {s s' : Size} (h : FitsChain ls s s')
    (hw : ∀ l ∈ ls, l.WF) (ht : ∀ l ∈ ls, l.Total) (hb : ∀ l ∈ ls, l.TotalBack) :
    ∃ ks : List (KindOn α S), AllSame ks ∧ ks.length = ls.length ∧ Corr (.same α s) ks ls ls (.same α s') := by
  induction h with
  | nil s => exact ⟨[], by simp [AllSame], rfl, .nil _⟩
  | @cons l ls s s₁ s' h t ih =>
    obtain ⟨ks, h1, h2, h3⟩ := ih (fun l hl => hw l (by simp [hl])) (fun l hl => ht l (by simp [hl]))
      (fun l hl => hb l (by simp [hl]))
    refine ⟨Kind.same s s₁ :: ks, ?_, by simp [h2], .cons (k := Kind.same s s₁) ⟨rfl,
      hw l (by simp), h, ht l (by simp), hb l (by simp)⟩ h3⟩
    intro k hk
    rcases List.mem_cons.mp hk with rfl | hk
    · exact ⟨_, _, rfl⟩
    · exact h1 k hk

theorem Corr.of_fits {ls : List (Layer α)} {s s' : Size} (h : FitsChain ls s s')
    (hw : ∀ l ∈ ls, l.WF) (ht : ∀ l ∈ ls, l.Total) (hb : ∀ l ∈ ls, l.TotalBack) :
    ∃ ks : List (Kind α), AllSame ks ∧ ks.length = ls.length ∧ Corr (.same α s) ks ls ls (.same α s') :=
  Corr.of_fits_on _ h hw ht hb

theorem AllSame.eq {ks : List (KindOn α S)} (hk : AllSame ks) {I O : Iface α} {ls ls' : List (Layer α)}
    (h : Corr I ks ls ls' O) : ls' = ls := by
  induction h with
  | nil => rfl
  | @cons k ks l l' ls ls' O h _ ih =>
    obtain ⟨s, s', rfl⟩ := hk k (by simp)
    obtain ⟨rfl, -⟩ := h
    rw [ih fun k hk' => hk k (by simp [hk'])]

variable [CommRing α] [LawfulOps α]

/-- All kinds of a list are pooling layers. -/
def AllPool (σ : Equiv.Perm Nat) (n : Nat) (ks : List (Kind α)) : Prop :=
  ∀ k ∈ ks, ∃ r c p q, k = Kind.pool σ n r c p q

omit [LawfulOps α] in
theorem AllPool.eq {σ : Equiv.Perm Nat} {n : Nat} {ks : List (Kind α)} (hk : AllPool σ n ks)
    {I O : Iface α} {ls ls' : List (Layer α)} (h : Corr I ks ls ls' O) :
    ∃ mid : List (Reduce α), ls = mid.map .reduce ∧ ls' = mid.map .reduce := by
  induction h with
  | nil => exact ⟨[], rfl, rfl⟩
  | @cons k ks l l' ls ls' O h _ ih =>
    obtain ⟨r, c, p, q, rfl⟩ := hk k (by simp)
    obtain ⟨a, rfl, rfl, -⟩ := h
    obtain ⟨mid, rfl, rfl⟩ := ih fun k hk' => hk k (by simp [hk'])
    exact ⟨a :: mid, rfl, rfl⟩

omit [LawfulOps α] in
theorem Corr.of_pools (σ : Equiv.Perm Nat) {mid : List (Reduce α)} {n r c : Nat} {s' : Size}
    (h : FitsChain (mid.map .reduce) (.maps n r c) s')
    (ht : ∀ l ∈ mid, (Layer.reduce l).Total) (hb : ∀ l ∈ mid, (Layer.reduce l).TotalBack) :
    ∃ r' c' ks, s' = .maps n r' c' ∧ AllPool σ n ks
      ∧ Corr (.renum α σ n r c) ks (mid.map .reduce) (mid.map .reduce) (.renum α σ n r' c') := by
  induction mid generalizing r c with
  | nil => cases h; exact ⟨r, c, [], rfl, by simp [AllPool], .nil _⟩
  | cons l mid ih =>
    cases h with
    | @cons _ _ _ s₁ _ h t =>
      cases s₁ with
      | vec m => exact h.elim
      | maps n' r1 c1 =>
        obtain ⟨rfl, hn, hr, hc, hp, hq, rfl, rfl⟩ := h
        obtain ⟨r', c', ks, h1, h2, h3⟩ := ih t (fun l hl => ht l (by simp [hl]))
          (fun l hl => hb l (by simp [hl]))
        have hb' := hb l (by simp)
        refine ⟨r', c', Kind.pool σ n r1 c1 l.blockSize.1 l.blockSize.2 :: ks, h1, ?_,
          .cons (k := Kind.pool σ n r1 c1 l.blockSize.1 l.blockSize.2) ⟨l, rfl, rfl, rfl,
            ht l (by simp), hb', by rw [hn]; exact hb'.2.2.2, hr, hc, hp, hq⟩ h3⟩
        intro k hk
        rcases List.mem_cons.mp hk with rfl | hk
        · exact ⟨_, _, _, _, rfl⟩
        · exact h2 k hk

/-- The kinds of the layers that read the maps. -/
inductive ReaderKinds (σ : Equiv.Perm Nat) (nf : Nat) : List (Kind α) → Prop
  | conv {v p q r c : Nat} (hσ : ∀ j, σ j < nf ↔ j < nf) :
      ReaderKinds σ nf [Kind.channels σ v nf p q r c hσ]
  | dense {v r c : Nat} (hσ : ∀ j, σ j < nf ↔ j < nf) :
      ReaderKinds σ nf [Kind.flatten σ nf r c, Kind.columns σ v nf r c hσ]

theorem ReaderKinds.reader {σ : Equiv.Perm Nat} {nf : Nat} {ks : List (Kind α)}
    (hk : ReaderKinds σ nf ks) {I O : Iface α} {ls ls' : List (Layer α)} (h : Corr I ks ls ls' O) :
    FilterReader σ nf ls ls' := by
  cases hk with
  | conv hσ =>
    obtain ⟨l, l', t, t', rfl, rfl, ⟨a, a', K, b, f, rfl, rfl, h1, h2, -⟩, h3⟩ := h.cons_inv
    obtain ⟨rfl, rfl⟩ := h3.nil_inv
    exact .conv h1 h2
  | dense hσ =>
    obtain ⟨l, l', t, t', rfl, rfl, ⟨a, rfl, rfl, ha⟩, h3⟩ := h.cons_inv
    obtain ⟨l, l', t, t', rfl, rfl, ⟨b, b', V, c, f, rfl, rfl, h1, h2, -⟩, h4⟩ := h3.cons_inv
    obtain ⟨rfl, rfl⟩ := h4.nil_inv
    exact .dense ha h1 h2

theorem Corr.of_reader {σ : Equiv.Perm Nat} {nf : Nat} (hσ : ∀ j, σ j < nf ↔ j < nf)
    {rd rd' : List (Layer α)} (h : FilterReader σ nf rd rd') {r c : Nat} {s' : Size}
    (hf : FitsChain rd (.maps nf r c) s') (ht : ∀ l ∈ rd, l.Total) (hb : ∀ l ∈ rd, l.TotalBack) :
    ∃ ks, ReaderKinds σ nf ks ∧ Corr (.renum α σ nf r c) ks rd rd' (.same α s') := by
  cases h with
  | @conv b b' v p q K d f h h' =>
    cases hf with
    | cons hf t =>
      cases t
      obtain ⟨r1, c1, e, rfl, d1, d2, d3⟩ := (Conv.fits_dims h).mp hf
      cases e
      have a1 := ht (.conv b) (by simp)
      have a2 := hb (.conv b) (by simp)
      have hfn : b.func = f := h.2.2.1
      simp only [Layer.Total, Layer.TotalBack, hfn] at a1 a2
      exact ⟨_, .conv hσ, .cons (k := Kind.channels σ v nf p q r c hσ)
        ⟨b, b', K, d, f, rfl, rfl, h, h', ⟨a1, a2⟩, d1, d2, d3⟩ (.nil _)⟩
  | @dense l b b' r1 c1 v V d f hl h h' =>
    cases hf with
    | @cons _ _ _ s₁ _ hf t =>
      cases t with
      | cons hf2 t =>
        cases t
        obtain ⟨rfl, rfl, hn⟩ := (Dense.fits_dims h).mp hf2
        obtain ⟨e, -⟩ := hf
        rw [hl] at e
        cases e
        have a1 := ht (.dense b) (by simp)
        have a2 := hb (.dense b) (by simp)
        have hfn : b.func = f := h.2.2
        simp only [Layer.Total, Layer.TotalBack, hfn] at a1 a2
        exact ⟨_, .dense hσ, .cons (k := Kind.flatten σ nf r c) ⟨l, rfl, rfl, hl⟩
          (.cons (k := Kind.columns σ v nf r c hσ)
            ⟨b, b', V, d, f, rfl, rfl, h, h', ⟨a1, a2⟩, hn⟩ (.nil _))⟩

/-- The kinds of a network with renumbered filters. -/
structure FilterKinds (σ : Equiv.Perm Nat) (k nf : Nat) (ks : List (Kind α)) : Prop where
  perm : ∀ j, σ j < nf ↔ j < nf
  parts : ∃ ks1 ks2 kr ks3 m p q r c, ks = ks1 ++ Kind.filters σ nf m p q r c perm
      :: (ks2 ++ (kr ++ ks3)) ∧ AllSame ks1 ∧ ks1.length = k ∧ AllPool σ nf ks2
    ∧ ReaderKinds σ nf kr ∧ AllSame ks3

theorem FilterPerm.corr {σ : Equiv.Perm Nat} {k nf : Nat} {n n' : Net α}
    (h : FilterPerm σ k nf n n') {s s' : Size} (hr : n.Ready s s') :
    ∃ ks, FilterKinds σ k nf ks ∧ Corr (.same α s) ks n.layers n'.layers (.same α s') := by
  obtain ⟨hσ, pre, a, a', mid, rd, rd', post, m, p, q, K, c, f, hk, e, e', ha, ha', hrd⟩ := h
  obtain ⟨-, hw, hf, ht, hb⟩ := hr
  rw [e] at hw hf ht hb
  rw [e, e']
  obtain ⟨s1, f1, f2⟩ := hf.split
  cases f2 with
  | @cons _ _ _ s2 _ f2 f3 =>
    obtain ⟨s3, f3, f4⟩ := f3.split
    obtain ⟨s4, f4, f5⟩ := f4.split
    obtain ⟨r1, c1, rfl, rfl, d⟩ := (Conv.fits_dims ha).mp f2
    obtain ⟨ks1, k1, k2, k3⟩ := Corr.of_fits f1 (fun l hl => hw l (by simp [hl]))
      (fun l hl => ht l (by simp [hl])) (fun l hl => hb l (by simp [hl]))
    obtain ⟨r2, c2, ks2, rfl, k4, k5⟩ := Corr.of_pools σ f3 (fun l hl => ht _ (by simp [hl]))
      (fun l hl => hb _ (by simp [hl]))
    obtain ⟨kr, k6, k7⟩ := Corr.of_reader hσ hrd f4 (fun l hl => ht l (by simp [hl]))
      (fun l hl => hb l (by simp [hl]))
    obtain ⟨ks3, k8, -, k9⟩ := Corr.of_fits f5 (fun l hl => hw l (by simp [hl]))
      (fun l hl => ht l (by simp [hl])) (fun l hl => hb l (by simp [hl]))
    have a1 := ht (.conv a) (by simp)
    have a2 := hb (.conv a) (by simp)
    have hfn : a.func = f := ha.2.2.1
    simp only [Layer.Total, Layer.TotalBack, hfn] at a1 a2
    refine ⟨_, ⟨hσ, ks1, ks2, kr, ks3, m, p, q, r1, c1, rfl, k1, k2.trans hk, k4, k6, k8⟩,
      k3.append (.cons (k := Kind.filters σ nf m p q r1 c1 hσ)
        ⟨a, a', K, c, f, rfl, rfl, ha, ha', ⟨a1, a2⟩, d⟩ (k5.append (k7.append k9)))⟩

theorem FilterKinds.filterPerm {σ : Equiv.Perm Nat} {k nf : Nat} {ks : List (Kind α)}
    (hk : FilterKinds σ k nf ks) {n n' : Net α} {I O : Iface α}
    (h : Corr I ks n.layers n'.layers O) : FilterPerm σ k nf n n' := by
  obtain ⟨hσ, ks1, ks2, kr, ks3, m, p, q, r, c, rfl, k1, k2, k3, k4, k5⟩ := hk
  obtain ⟨pre, b, pre', b', M, e1, e2, h1, h2, h3⟩ := h.append_inv
  obtain ⟨l, l', t, t', rfl, rfl, ⟨a, a', K, c, f, rfl, rfl, ha, ha', -⟩, h4⟩ := h2.cons_inv
  obtain ⟨md, t, md', t', M2, rfl, rfl, h5, h6, -⟩ := h4.append_inv
  obtain ⟨rd, post, rd', post', M3, rfl, rfl, h7, h8, -⟩ := h6.append_inv
  obtain ⟨mid, rfl, rfl⟩ := k3.eq h5
  obtain rfl := k1.eq h1
  obtain rfl := k5.eq h8
  exact ⟨hσ, _, a, a', mid, rd, rd', _, m, p, q, K, c, f, h3.trans k2, e1, e2, ha, ha',
    k4.reader h7⟩

omit [CommRing α] [LawfulOps α] in
theorem FilterReader.fits {σ : Equiv.Perm Nat} {nf : Nat} {rd rd' : List (Layer α)}
    (h : FilterReader σ nf rd rd') {s s' : Size} (hf : FitsChain rd s s') :
    FitsChain rd' s s' := by
  cases h with
  | conv h h' =>
    cases hf with
    | cons hf t => exact .cons ((Conv.fits_dims h').mpr ((Conv.fits_dims h).mp hf)) t
  | dense hl h h' =>
    cases hf with
    | cons hf t =>
      cases t with
      | cons hf2 t => exact .cons hf (.cons ((Dense.fits_dims h').mpr ((Dense.fits_dims h).mp hf2)) t)

omit [CommRing α] [LawfulOps α] in
theorem FilterReader.props {σ : Equiv.Perm Nat} {nf : Nat} {rd rd' : List (Layer α)}
    (h : FilterReader σ nf rd rd') (ht : ∀ l ∈ rd, l.Total) (hb : ∀ l ∈ rd, l.TotalBack) :
    (∀ l ∈ rd', l.WF) ∧ (∀ l ∈ rd', l.Total) ∧ (∀ l ∈ rd', l.TotalBack)
      ∧ rd'.length = rd.length := by
  cases h with
  | @conv b b' v p q K d f h h' =>
    have a1 := ht (.conv b) (by simp)
    have a2 := hb (.conv b) (by simp)
    have e : b'.func = b.func := h'.2.2.1.trans h.2.2.1.symm
    simp only [Layer.Total, Layer.TotalBack, ← e] at a1 a2
    simp only [List.mem_singleton, forall_eq]
    exact ⟨h'.wf, a1, a2, rfl⟩
  | @dense l b b' r1 c1 v V d f hl h h' =>
    have a1 := ht (.dense b) (by simp)
    have a2 := hb (.dense b) (by simp)
    have e : b'.func = b.func := h'.2.2.trans h.2.2.symm
    simp only [Layer.Total, Layer.TotalBack, ← e] at a1 a2
    simp only [List.mem_cons, List.not_mem_nil, or_false, forall_eq_or_imp, forall_eq]
    exact ⟨⟨trivial, h'.wf_of⟩, ⟨trivial, a1⟩, ⟨trivial, a2⟩, rfl⟩

omit [CommRing α] [LawfulOps α] in
/-- Renumbering keeps a network ready. -/
theorem FilterPerm.ready {σ : Equiv.Perm Nat} {k nf : Nat} {n n' : Net α}
    (h : FilterPerm σ k nf n n') {s s' : Size} (hr : n.Ready s s') : n'.Ready s s' := by
  obtain ⟨hσ, pre, a, a', mid, rd, rd', post, m, p, q, K, c, f, hk, e, e', ha, ha', hrd⟩ := h
  obtain ⟨hl, hw, hf, ht, hb⟩ := hr
  rw [e] at hw hf ht hb hl
  obtain ⟨s1, f1, f2⟩ := hf.split
  obtain ⟨r1, r2, r3, r4⟩ := hrd.props (fun l hl => ht l (by simp [hl])) (fun l hl => hb l (by simp [hl]))
  have a1 := ht (.conv a) (by simp)
  have a2 := hb (.conv a) (by simp)
  have efn : a'.func = a.func := ha'.2.2.1.trans ha.2.2.1.symm
  simp only [Layer.Total, Layer.TotalBack, ← efn] at a1 a2
  cases f2 with
  | cons f2 f3 =>
    obtain ⟨s3, f3, f4⟩ := f3.split
    obtain ⟨s4, f4, f5⟩ := f4.split
    have key : ∀ Q : Layer α → Prop, (∀ l ∈ pre ++ .conv a :: (mid.map .reduce ++ (rd ++ post)), Q l) →
        Q (.conv a') → (∀ l ∈ rd', Q l) →
        ∀ l ∈ pre ++ .conv a' :: (mid.map .reduce ++ (rd' ++ post)), Q l := by
      intro Q h1 h2 h3 l hl
      simp only [List.mem_append, List.mem_cons] at hl h1
      rcases hl with hl | rfl | hl | hl | hl
      · exact h1 l (.inl hl)
      · exact h2
      · exact h1 l (.inr (.inr (.inl hl)))
      · exact h3 l hl
      · exact h1 l (.inr (.inr (.inr (.inr hl))))
    refine ⟨?_, ?_, ?_, ?_, ?_⟩ <;> rw [e']
    · simp only [List.length_append, List.length_cons, List.length_map, r4] at hl ⊢
      exact hl
    · exact key _ hw ha'.wf r1
    · exact f1.join (.cons ((Conv.fits_dims ha').mpr ((Conv.fits_dims ha).mp f2))
        (f3.join ((hrd.fits f4).join f5)))
    · exact key _ ht a1 r2
    · exact key _ hb a2 r3

end corr

/-! ## C110 -/

section
variable {w : Width} {σ : Equiv.Perm Nat} {k nf : Nat} {n n' : Net (Cf w ℝ)} {s s' : Size}

/-- C110. Renumbering the filters of a convolutional layer does not change what the network
computes. -/
theorem C110_forward (h : FilterPerm σ k nf n n') (hr : n.Ready s s') (x : IOType (Cf w ℝ))
    (hx : x.HasSize s) : n'.forward x = n.forward x := by
  obtain ⟨ks, -, hc⟩ := h.corr hr
  have hne : n.layers ≠ [] := by
    intro h0
    have := hr.layers
    rw [h0] at this
    simp at this
  obtain ⟨y, h1, h2, -⟩ := hc.forward hne hx
  rw [h1, h2]

/-- C110. Nor its loss and its accuracy. -/
theorem C110_measures (h : FilterPerm σ k nf n n') (hr : n.Ready s s') (data : Dataset (Cf w ℝ))
    (hs : data.HasSize s s') :
    (∀ lf, n'.loss data lf = n.loss data lf) ∧ n'.maxPredTest data = n.maxPredTest data := by
  constructor
  · intro lf
    unfold Net.loss
    congr 1
    exact mapM_congr fun p hp => by rw [C110_forward h hr p.1 (hs p hp).1]
  · unfold Net.maxPredTest
    congr 1
    exact mapM_congr fun p hp => by rw [C110_forward h hr p.1 (hs p hp).1]

/-- C110. Training commutes with renumbering: a training call panics for both networks or for
neither, with the same result, and the networks it leaves differ by the same renumbering. -/
theorem C110_step (h : FilterPerm σ k nf n n') (hr : n.Ready s s') (data : Dataset (Cf w ℝ))
    (hs : data.HasSize s s') (lf : LossFunc) (lr : Cf w ℝ) :
    Option.Rel (fun o o' => o.1 = o'.1 ∧ FilterPerm σ k nf o.2 o'.2 ∧ o.2.Ready s s')
      (n.gradientOpt data lf lr) (n'.gradientOpt data lf lr) := by
  cases hd : BasicOps.div lr (CplxOps.ofUsize data.inputs.length) with
  | none =>
    rw [(C66_panics n hr data hs lf lr).mpr hd, (C66_panics n' (h.ready hr) data hs lf lr).mpr hd]
    exact .none
  | some scale =>
    obtain ⟨ks, hk, hc⟩ := h.corr hr
    obtain ⟨m, m', e1, e2, -, e3⟩ := hc.step hr.layers (dLoss_total lf) hs hd
    obtain ⟨m1, e4, e5⟩ := C66_step n hr data hs lf lr scale hd
    rw [e1] at e4
    cases e4
    rw [e1, e2]
    exact .some ⟨rfl, hk.filterPerm e3, e5⟩

/-- C110. The same for a whole training run. -/
theorem C110_train (h : FilterPerm σ k nf n n') (hr : n.Ready s s')
    (steps : List (TrainStep (Cf w ℝ))) (hs : ∀ st ∈ steps, st.1.HasSize s s') :
    Option.Rel (fun m m' => FilterPerm σ k nf m m' ∧ m.Ready s s') (n.train steps)
      (n'.train steps) := by
  induction steps generalizing n n' with
  | nil => exact .some ⟨h, hr⟩
  | cons st steps ih =>
    simp only [Net.train, List.foldlM_cons, Option.bind_eq_bind]
    have := C110_step h hr st.1 (hs st (by simp)) st.2.1 st.2.2
    cases hr1 : n.gradientOpt st.1 st.2.1 st.2.2 with
    | none =>
      rw [hr1] at this
      cases hr' : n'.gradientOpt st.1 st.2.1 st.2.2 with
      | none => exact .none
      | some o => rw [hr'] at this; cases this
    | some o =>
      rw [hr1] at this
      cases hr' : n'.gradientOpt st.1 st.2.1 st.2.2 with
      | none => rw [hr'] at this; cases this
      | some o' =>
        rw [hr'] at this
        cases this with
        | some this => exact ih this.2.1 this.2.2 fun st hst => hs st (by simp [hst])

/-- C110. Filters that are alike — same kernels, same bias, and read alike by the next layer — stay
alike, whatever the data: a network that renumbering does not change is trained to such a network. -/
theorem C110_symmetric (h : FilterPerm σ k nf n n) (hr : n.Ready s s')
    (steps : List (TrainStep (Cf w ℝ))) (hs : ∀ st ∈ steps, st.1.HasSize s s') {m : Net (Cf w ℝ)}
    (hm : n.train steps = some m) : FilterPerm σ k nf m m := by
  have := C110_train h hr steps hs
  rw [hm] at this
  cases this with
  | some this => exact this.1

/-- A network with two filters of one weight each, read by a dense layer with one unit. -/
noncomputable def twoFilters (K V : Nat → Cf w ℝ) : Net (Cf w ℝ) :=
  ⟨[.conv ⟨1, Mat.fromBody (table 2 1 fun o _ => Mat.fromBody (table 1 1 fun _ _ => K o) (1, 1)) (2, 1),
      (List.range 2).map K, .ritReLU⟩, .flatten ⟨((1, 1), 2)⟩,
    .dense ⟨Mat.fromBody (table 1 2 fun _ i => V i) (1, 2), [0], .none⟩]⟩

theorem twoFilters_conv (K : Nat → Cf w ℝ) : Conv.Is ⟨1, Mat.fromBody (table 2 1 fun o _ =>
      Mat.fromBody (table 1 1 fun _ _ => K o) (1, 1)) (2, 1), (List.range 2).map K, .ritReLU⟩
    2 1 1 1 (fun o _ _ _ => K o) K .ritReLU :=
  ⟨rfl, rfl, rfl, _, Mat.fromBody_is 2 1 _, fun _ _ _ _ => Mat.fromBody_is 1 1 _⟩

theorem twoFilters_ready (K V : Nat → Cf w ℝ) : (twoFilters K V).Ready (.maps 1 1 1) (.vec 1) := by
  have hd : Dense.Is ⟨Mat.fromBody (table 1 2 fun _ i => V i) (1, 2), [0], .none⟩
      1 2 (fun _ i => V i) (fun _ => 0) .none := ⟨Mat.fromBody_is 1 2 _, rfl, rfl⟩
  refine ⟨by simp [twoFilters], ?_, ?_, ?_, ?_⟩
  · simp only [twoFilters, List.mem_cons, List.not_mem_nil, or_false, forall_eq_or_imp, forall_eq]
    exact ⟨(twoFilters_conv K).wf, trivial, hd.wf_of⟩
  · exact .cons ((Conv.fits_dims (twoFilters_conv K)).mpr ⟨1, 1, rfl, rfl, by simp⟩)
      (.cons (s₁ := .vec 2) ⟨rfl, rfl⟩ (.cons ((Dense.fits_dims hd).mpr ⟨rfl, rfl, by simp⟩) (.nil _)))
  · simp only [twoFilters, List.mem_cons, List.not_mem_nil, or_false, forall_eq_or_imp, forall_eq]
    exact ⟨fun z => ⟨_, rfl⟩, trivial, fun z => ⟨_, rfl⟩⟩
  · simp only [twoFilters, List.mem_cons, List.not_mem_nil, or_false, forall_eq_or_imp, forall_eq]
    exact ⟨⟨fun z => (C66_total _ (by simp) z).1, fun z => (C66_total _ (by simp) z).2⟩, trivial,
      fun z => (C66_total _ (by simp) z).1, fun z => (C66_total _ (by simp) z).2⟩

theorem twoFilters_swap (K V : Nat → Cf w ℝ) : FilterPerm (Equiv.swap 0 1) 0 2 (twoFilters K V)
    (twoFilters (fun o => K (Equiv.swap 0 1 o)) fun i => V (Equiv.swap 0 1 i)) := by
  have hl : ∀ (K V : Nat → Cf w ℝ), (twoFilters K V).layers = [] ++ .conv ⟨1, Mat.fromBody
      (table 2 1 fun o _ => Mat.fromBody (table 1 1 fun _ _ => K o) (1, 1)) (2, 1),
      (List.range 2).map K, .ritReLU⟩ :: (([] : List (Reduce (Cf w ℝ))).map .reduce
      ++ ([.flatten ⟨((1, 1), 2)⟩, .dense ⟨Mat.fromBody (table 1 2 fun _ i => V i) (1, 2), [0],
        .none⟩] ++ [])) := fun _ _ => rfl
  refine ⟨swap_lt (by omega) (by omega), [], _, _, [], _, _, [], 1, 1, 1, fun o _ _ _ => K o, K,
    .ritReLU, rfl, hl _ _, hl _ _, twoFilters_conv K, twoFilters_conv _, ?_⟩
  refine .dense (r := 1) (s := 1) (v := 1) (V := fun _ i => V i) (c := fun _ => 0) (f := .none) rfl
    ⟨Mat.fromBody_is 1 2 _, rfl, rfl⟩ ⟨?_, rfl, rfl⟩
  have : (fun (_ i : Nat) => V (blockPerm (Equiv.swap 0 1) (1 * 1) i))
      = fun _ i => V (Equiv.swap 0 1 i) := by
    funext _ i
    simp [blockPerm, Nat.mod_one]
  rw [this]
  exact Mat.fromBody_is 1 2 _

example (K V : Nat → Cf w ℝ) (x : IOType (Cf w ℝ)) (hx : x.HasSize (.maps 1 1 1)) :
    (twoFilters (fun o => K (Equiv.swap 0 1 o)) fun i => V (Equiv.swap 0 1 i)).forward x
      = (twoFilters K V).forward x :=
  C110_forward (twoFilters_swap K V) (twoFilters_ready K V) x hx

/-- Two equal filters, read alike, can never be told apart by training. -/
example (z v : Cf w ℝ) : FilterPerm (Equiv.swap 0 1) 0 2 (twoFilters (fun _ => z) fun _ => v)
    (twoFilters (fun _ => z) fun _ => v) :=
  twoFilters_swap (fun _ => z) fun _ => v

end

end Renplex
