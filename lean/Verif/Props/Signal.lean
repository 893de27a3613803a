import Verif.Spec.Signal
import Verif.Props.Data
import Verif.Props.Random
import Verif.Props.Complex
/-!
# Synthetic signals: C61
-/

namespace Renplex
namespace Signal

/-- The multiplication of the generator does not overflow. -/
def Fits (s : Nat) : Prop := 1103515245 * s + 12345 < 2 ^ 128

theorem fits_next (s : Nat) : Fits (lcgNext s) := fits_of_lt (lcgNext_lt s)

theorem wave_ok (seed : Nat) (h : Fits seed) :
    ∃ p s, wave (R := ℝ) seed = some (p, s) ∧ WaveParams p ∧ Fits s := by
  have e : wave (R := ℝ) seed = some
      ((Scalar.add (Scalar.mul ((lcgNext seed : ℝ) / 2 ^ 31) (Scalar.lit 9 10)) (Scalar.lit 1 10),
        Scalar.add (Scalar.mul ((lcgNext (lcgNext seed) : ℝ) / 2 ^ 31) (Scalar.lit 9 10))
          (Scalar.lit 1 10),
        Scalar.mul (Scalar.mul Scalar.two Scalar.pi)
          ((lcgNext (lcgNext (lcgNext seed)) : ℝ) / 2 ^ 31)),
        lcgNext (lcgNext (lcgNext seed))) := by
    simp only [wave, lcgf_real seed h, lcgf_real _ (fits_next _), Option.bind_eq_bind,
      Option.bind_some]
  refine ⟨_, _, e, ?_, fits_next _⟩
  · have h1 := draw_range seed
    have h2 := draw_range (lcgNext seed)
    have h3 := draw_range (lcgNext (lcgNext seed))
    simp only [WaveParams, sadd, smul', slit, stwo, spi]
    generalize (lcgNext seed : ℝ) / 2 ^ 31 = u1 at *
    generalize (lcgNext (lcgNext seed) : ℝ) / 2 ^ 31 = u2 at *
    generalize (lcgNext (lcgNext (lcgNext seed)) : ℝ) / 2 ^ 31 = u3 at *
    have hpi := Real.pi_pos
    push_cast
    refine ⟨by linarith, by linarith, by linarith, by linarith,
      mul_nonneg (by positivity) h3.1, ?_⟩
    nlinarith [h3.2]

theorem waves_ok (n : Nat) : ∀ seed, Fits seed →
    ∃ ws s, waves (R := ℝ) n seed = some (ws, s) ∧ ws.length = n ∧ (∀ p ∈ ws, WaveParams p)
      ∧ Fits s := by
  induction n with
  | zero => exact fun seed h => ⟨[], seed, rfl, rfl, by simp, h⟩
  | succ n ih =>
    intro seed h
    obtain ⟨p, s, e1, h1, h2⟩ := wave_ok seed h
    obtain ⟨ws, s', e2, h3, h4, h5⟩ := ih s h2
    refine ⟨p :: ws, s', ?_, by simp [h3], ?_, h5⟩
    · rw [waves, e1]
      simp only [Option.bind_eq_bind, Option.bind_some]
      rw [e2]
      rfl
    · intro q hq
      rcases List.mem_cons.mp hq with rfl | hq
      · exact h1
      · exact h4 q hq

theorem newe_toC (r phi : ℝ) :
    (Cf.newe r phi : Cf .w32 ℝ).toC = r * Complex.exp (phi * Complex.I) := by
  apply Complex.ext
  · simp [Cf.newe, Complex.exp_ofReal_mul_I_re]
  · simp [Cf.newe, Complex.exp_ofReal_mul_I_im]

theorem sample_toC (ws : List (ℝ × ℝ × ℝ)) (t : ℝ) : (sample ws t).toC = superpose ws t := by
  have : ∀ acc : Cf .w32 ℝ, (ws.foldl (fun acc p => Cf.add acc
      (Cf.newe p.1 (Scalar.add (Scalar.mul p.2.1 t) p.2.2))) acc).toC
      = acc.toC + superpose ws t := by
    induction ws with
    | nil => intro acc; simp [superpose]
    | cons p ws ih =>
      intro acc
      rw [List.foldl_cons, ih, Cf.toC_add, newe_toC, add_assoc]
      rfl
  rw [sample, this]
  have h0 : (Cf.new Scalar.zero Scalar.zero : Cf .w32 ℝ).toC = 0 := by
    apply Complex.ext <;> simp [Cf.new]
  rw [h0, zero_add]

theorem maxNorm_spec (s : List (Cf .w32 ℝ)) :
    (∀ z ∈ s, ‖z.toC‖ ≤ maxNorm s) ∧ (maxNorm s = 0 ∨ ∃ z ∈ s, ‖z.toC‖ = maxNorm s)
      ∧ 0 ≤ maxNorm s := by
  have : ∀ acc : ℝ, 0 ≤ acc →
      let r := s.foldl (fun acc z => if Scalar.lt acc z.norm then z.norm else acc) acc
      acc ≤ r ∧ (∀ z ∈ s, ‖z.toC‖ ≤ r) ∧ (r = acc ∨ ∃ z ∈ s, ‖z.toC‖ = r) := by
    induction s with
    | nil => intro acc _; simp
    | cons z s ih =>
      intro acc hacc
      simp only [List.foldl_cons, slt, Cf.norm_eq] at ih ⊢
      by_cases h : acc < ‖z.toC‖
      · rw [if_pos h]
        obtain ⟨h1, h2, h3⟩ := ih ‖z.toC‖ (norm_nonneg _)
        refine ⟨h.le.trans h1, ?_, ?_⟩
        · intro q hq
          rcases List.mem_cons.mp hq with rfl | hq
          · exact h1
          · exact h2 q hq
        · rcases h3 with h3 | ⟨q, hq, h3⟩
          · exact .inr ⟨z, by simp, h3.symm⟩
          · exact .inr ⟨q, by simp [hq], h3⟩
      · rw [if_neg h]
        obtain ⟨h1, h2, h3⟩ := ih acc hacc
        refine ⟨h1, ?_, ?_⟩
        · intro q hq
          rcases List.mem_cons.mp hq with rfl | hq
          · exact (not_lt.mp h).trans h1
          · exact h2 q hq
        · rcases h3 with h3 | ⟨q, hq, h3⟩
          · exact .inl h3
          · exact .inr ⟨q, by simp [hq], h3⟩
  have h0 := this 0 le_rfl
  simp only [maxNorm, szero]
  exact ⟨h0.2.1, h0.2.2, h0.1⟩

theorem divAssign_real (z : Cf .w32 ℝ) (m : ℝ) (hm : m ≠ 0) :
    ∃ q, Cf.divAssign z (Cf.new m Scalar.zero) = some q ∧ q.toC = z.toC / m := by
  have hd : ¬ (Scalar.beq (Cf.new m Scalar.zero : Cf .w32 ℝ).den Scalar.zero = true) := by
    simp [Cf.den, Cf.new, hm]
  refine ⟨_, by unfold Cf.divAssign; rw [if_neg hd], ?_⟩
  apply Complex.ext
  · simp [Cf.den, Cf.new]; field_simp
  · simp [Cf.den, Cf.new]; field_simp

theorem normalise_ok (s : List (Cf .w32 ℝ)) :
    ∃ s' scale, normalise s = some s' ∧ s'.length = s.length ∧ 0 < scale
      ∧ (∀ (i : Nat) (h : i < s.length) (h' : i < s'.length), s'[i].toC = s[i].toC / (scale : ℝ))
      ∧ (∀ z ∈ s', ‖z.toC‖ ≤ 1)
      ∧ ((∀ z ∈ s', z.toC = 0) ∨ ∃ z ∈ s', ‖z.toC‖ = 1) := by
  obtain ⟨h1, h2, h3⟩ := maxNorm_spec s
  by_cases hm : maxNorm s = 0
  · have hz : ∀ z ∈ s, z.toC = 0 := fun z hz => by
      have := h1 z hz
      rw [hm] at this
      exact norm_eq_zero.mp (le_antisymm this (norm_nonneg _))
    refine ⟨s, 1, ?_, rfl, one_pos, by simp, fun z h => by simp [hz z h], .inl hz⟩
    simp [normalise, hm]
  · have hpos : 0 < maxNorm s := lt_of_le_of_ne h3 (Ne.symm hm)
    have hq : ∀ z ∈ s, Cf.divAssign z (Cf.new (maxNorm s) Scalar.zero)
        = some (Cf.ofC (z.toC / (maxNorm s : ℝ))) := fun z _ => by
      obtain ⟨q, e1, e2⟩ := divAssign_real z _ hm
      rw [e1, ← e2, Cf.ofC_toC]
    have e : normalise s = some (s.map fun z => Cf.ofC (z.toC / (maxNorm s : ℝ))) := by
      unfold normalise
      simp only
      have hb : Scalar.beq (maxNorm s) Scalar.zero = false := by
        rw [Bool.eq_false_iff]; simpa using hm
      rw [hb]
      exact mapM_some_of _ _ _ hq
    refine ⟨_, maxNorm s, e, by simp, hpos, by simp, ?_, ?_⟩
    · intro z hz
      obtain ⟨y, hy, rfl⟩ := List.mem_map.mp hz
      rw [Cf.toC_ofC, norm_div, Complex.norm_real, Real.norm_of_nonneg h3]
      exact (div_le_one hpos).mpr (h1 y hy)
    · rcases h2 with h2 | ⟨y, hy, h2⟩
      · exact absurd h2 hm
      · refine .inr ⟨_, List.mem_map.mpr ⟨y, hy, rfl⟩, ?_⟩
        rw [Cf.toC_ofC, norm_div, Complex.norm_real, Real.norm_of_nonneg h3, h2, div_self hm]

theorem noisyPair_length (thr : ℝ) (e1 e2 : Cf .w32 ℝ) (u1 u2 v1 v2 : ℝ) :
    (noisyPair thr e1 e2 u1 u2 v1 v2).length = 2 := rfl

theorem noisyPair_zero (e1 e2 : Cf .w32 ℝ) (u1 u2 v1 v2 : ℝ) :
    noisyPair 0 e1 e2 u1 u2 v1 v2 = [e1, e2] := by
  simp [noisyPair, Cf.newe, Cf.add]

theorem corruptTrain_ok (thr : ℝ) (fuel : Nat) : ∀ (l : List (Cf .w32 ℝ)) (train test : Nat),
    l.length ≤ fuel → l.length % 2 = 0 → Fits train → Fits test →
    ∃ x train' test', corruptTrain thr (chunksAux 2 fuel l) train test = some (x, train', test')
      ∧ x.length = l.length ∧ (thr = 0 → x = l) ∧ Fits train' ∧ Fits test' := by
  induction fuel with
  | zero =>
    intro l train test hl _ h1 h2
    have : l = [] := List.length_eq_zero_iff.mp (by omega)
    subst this
    exact ⟨[], train, test, rfl, rfl, fun _ => rfl, h1, h2⟩
  | succ fuel ih =>
    intro l train test hl he h1 h2
    match l, hl, he with
    | [], _, _ => exact ⟨[], train, test, rfl, rfl, fun _ => rfl, h1, h2⟩
    | [a], _, he => simp at he
    | a :: b :: l, hl, he =>
      obtain ⟨x, tr, te, e, hx, hz, f1, f2⟩ := ih l (lcgNext (lcgNext train))
        (lcgNext (lcgNext test)) (by simp at hl; omega) (by simp at he; omega) (fits_next _)
        (fits_next _)
      refine ⟨noisyPair thr a b ((lcgNext test : ℝ) / 2 ^ 31) ((lcgNext (lcgNext test) : ℝ) / 2 ^ 31)
        ((lcgNext train : ℝ) / 2 ^ 31) ((lcgNext (lcgNext train) : ℝ) / 2 ^ 31) ++ x, tr, te,
        ?_, ?_, ?_, f1, f2⟩
      · show corruptTrain thr ([a, b] :: chunksAux 2 fuel l) train test = _
        rw [corruptTrain]
        simp only [List.getElem?_cons_zero, List.getElem?_cons_succ, lcgf_real train h1,
          lcgf_real test h2, lcgf_real _ (fits_next _), Option.bind_eq_bind, Option.bind_some]
        rw [e]
        rfl
      · rw [List.length_append, hx, noisyPair_length, List.length_cons, List.length_cons]
        omega
      · rintro rfl
        rw [noisyPair_zero, hz rfl]
        rfl

theorem corruptTest_ok (thr : ℝ) (fuel : Nat) : ∀ (l : List (Cf .w32 ℝ)) (test : Nat),
    l.length ≤ fuel → l.length % 2 = 0 → Fits test →
    ∃ x test', corruptTest thr (chunksAux 2 fuel l) test = some (x, test')
      ∧ x.length = l.length ∧ (thr = 0 → x = l) ∧ Fits test' := by
  induction fuel with
  | zero =>
    intro l test hl _ h2
    have : l = [] := List.length_eq_zero_iff.mp (by omega)
    subst this
    exact ⟨[], test, rfl, rfl, fun _ => rfl, h2⟩
  | succ fuel ih =>
    intro l test hl he h2
    match l, hl, he with
    | [], _, _ => exact ⟨[], test, rfl, rfl, fun _ => rfl, h2⟩
    | [a], _, he => simp at he
    | a :: b :: l, hl, he =>
      obtain ⟨x, te, e, hx, hz, f2⟩ := ih l (lcgNext (lcgNext (lcgNext (lcgNext test))))
        (by simp at hl; omega) (by simp at he; omega) (fits_next _)
      refine ⟨noisyPair thr a b ((lcgNext test : ℝ) / 2 ^ 31) ((lcgNext (lcgNext test) : ℝ) / 2 ^ 31)
        ((lcgNext (lcgNext (lcgNext test)) : ℝ) / 2 ^ 31)
        ((lcgNext (lcgNext (lcgNext (lcgNext test))) : ℝ) / 2 ^ 31) ++ x, te, ?_, ?_, ?_, f2⟩
      · show corruptTest thr ([a, b] :: chunksAux 2 fuel l) test = _
        rw [corruptTest]
        simp only [List.getElem?_cons_zero, List.getElem?_cons_succ,
          lcgf_real test h2, lcgf_real _ (fits_next _), Option.bind_eq_bind, Option.bind_some]
        rw [e]
        rfl
      · rw [List.length_append, hx, noisyPair_length, List.length_cons, List.length_cons]
        omega
      · rintro rfl
        rw [noisyPair_zero, hz rfl]
        rfl

theorem clean_ok (samples : Nat) (ws : List (ℝ × ℝ × ℝ)) (h1 : 1 ≤ ws.length)
    (h2 : ws.length ≤ 9) (hw : ∀ p ∈ ws, WaveParams p) :
    ∃ sig, normalise ((times samples).map (sample ws)) = some sig ∧ CleanSignal samples sig := by
  obtain ⟨sig, scale, e, hlen, hpos, hs, hb, hp⟩ := normalise_ok ((times samples).map (sample ws))
  have hl : ((times samples).map (sample ws)).length = samples := by simp [times]
  refine ⟨sig, e, hlen.trans hl, ⟨ws, scale, h1, h2, hw, hpos, fun i hi => ?_⟩, hb, hp⟩
  rw [hs i (by omega) hi, List.getElem_map, sample_toC]
  simp [times]

theorem point_ok (samples : Nat) (he : samples % 2 = 0) (thr : ℝ) (train test : Nat)
    (h1 : Fits train) (h2 : Fits test) :
    ∃ x y xt yt train' test', point samples thr train test
        = some ((x, y), (xt, yt), train', test')
      ∧ x.length = samples ∧ CleanSignal samples y ∧ (thr = 0 → x = y)
      ∧ xt.length = samples ∧ CleanSignal samples yt ∧ (thr = 0 → xt = yt)
      ∧ Fits train' ∧ Fits test' := by
  have hi : ∀ s, Fits s → ∃ k, Rng.lcgi s 8 = some (k, lcgNext s) ∧ k ≤ 8 := by
    intro s hs
    have := C26_partial s 8 hs (by norm_num) (by norm_num)
    obtain ⟨k, s', e, hs', hk, _⟩ := this
    exact ⟨k, by rw [e, hs'], hk⟩
  obtain ⟨k, e1, hk⟩ := hi train h1
  obtain ⟨ws, s2, e2, hl2, hw2, f2⟩ := waves_ok (k + 1) _ (fits_next train)
  obtain ⟨kt, e3, hkt⟩ := hi test h2
  obtain ⟨wst, s4, e4, hl4, hw4, f4⟩ := waves_ok (kt + 1) _ (fits_next test)
  obtain ⟨y, e5, c5⟩ := clean_ok samples ws (by omega) (by omega) hw2
  obtain ⟨yt, e6, c6⟩ := clean_ok samples wst (by omega) (by omega) hw4
  obtain ⟨x, tr, te, e7, hx, hxy, f7, f7'⟩ := corruptTrain_ok thr y.length y s2 s4 le_rfl
    (by rw [c5.length]; exact he) f2 f4
  obtain ⟨xt, te', e8, hxt, hxyt, f8⟩ := corruptTest_ok thr yt.length yt te le_rfl
    (by rw [c6.length]; exact he) f7'
  refine ⟨x, y, xt, yt, tr, te', ?_, hx.trans c5.length, c5, hxy, hxt.trans c6.length, c6, hxyt,
    f7, f8⟩
  rw [point, e1]
  simp only [Option.bind_eq_bind, Option.bind_some]
  rw [e2]
  simp only [Option.bind_some]
  rw [e3]
  simp only [Option.bind_some]
  rw [e4]
  simp only [Option.bind_some]
  rw [e5, e6]
  simp only [Option.bind_some, chunks, chunksPos]
  rw [if_neg (by norm_num), if_neg (by norm_num)]
  simp only [Option.bind_some]
  rw [e7]
  simp only [Option.bind_some]
  rw [e8]
  rfl

/-- A well-formed point: `samples` inputs, a clean signal as target; without noise they agree. -/
def GoodPoint (samples : Nat) (thr : ℝ) (p : IOType (Cf .w32 ℝ) × IOType (Cf .w32 ℝ)) : Prop :=
  ∃ x y, p = (.scalar x, .scalar y) ∧ x.length = samples ∧ CleanSignal samples y
    ∧ (thr = 0 → x = y)

theorem reconstruction_ok (samples : Nat) (he : samples % 2 = 0) (thr : ℝ) (b : Nat) :
    ∀ (train test : Nat) (d dt : List (IOType (Cf .w32 ℝ) × IOType (Cf .w32 ℝ))),
    Fits train → Fits test →
    ∃ ps pst s st, reconstruction samples thr b train test (Dataset.ofPoints d)
        (Dataset.ofPoints dt)
        = some ((Dataset.ofPoints (d ++ ps), Dataset.ofPoints (dt ++ pst)), s, st)
      ∧ ps.length = b ∧ pst.length = b ∧ (∀ p ∈ ps, GoodPoint samples thr p)
      ∧ ∀ p ∈ pst, GoodPoint samples thr p := by
  induction b with
  | zero =>
    intro train test d dt _ _
    exact ⟨[], [], train, test, by simp [reconstruction], rfl, rfl, by simp, by simp⟩
  | succ b ih =>
    intro train test d dt h1 h2
    obtain ⟨x, y, xt, yt, tr, te, e, a1, a2, a3, a4, a5, a6, f1, f2⟩ :=
      point_ok samples he thr train test h1 h2
    obtain ⟨ps, pst, s, st, e', l1, l2, g1, g2⟩ := ih tr te (d ++ [(.scalar x, .scalar y)])
      (dt ++ [(.scalar xt, .scalar yt)]) f1 f2
    refine ⟨(.scalar x, .scalar y) :: ps, (.scalar xt, .scalar yt) :: pst, s, st, ?_, by simp [l1],
      by simp [l2], ?_, ?_⟩
    · rw [reconstruction, e]
      simp only [Option.bind_eq_bind, Option.bind_some]
      rw [C58_add, C58_add, e']
      simp
    · intro p hp
      rcases List.mem_cons.mp hp with rfl | hp
      · exact ⟨x, y, rfl, a1, a2, a3⟩
      · exact g1 p hp
    · intro p hp
      rcases List.mem_cons.mp hp with rfl | hp
      · exact ⟨xt, yt, rfl, a4, a5, a6⟩
      · exact g2 p hp

/-! ## Panics, in any arithmetic -/

section any
variable {R : Type} [Scalar R]

theorem corruptTrain_odd (thr : R) (fuel : Nat) : ∀ (l : List (Cf .w32 R)) (train test : Nat),
    l.length ≤ fuel → l.length % 2 = 1 →
    corruptTrain thr (chunksAux 2 fuel l) train test = none := by
  induction fuel with
  | zero => intro l train test hl he; omega
  | succ fuel ih =>
    intro l train test hl he
    match l, hl, he with
    | [], _, he => simp at he
    | [a], _, _ =>
      show corruptTrain thr ([a] :: chunksAux 2 fuel []) train test = none
      rw [corruptTrain]
      simp
    | a :: b :: l, hl, he =>
      show corruptTrain thr ([a, b] :: chunksAux 2 fuel l) train test = none
      rw [corruptTrain]
      simp only [Option.bind_eq_bind, Option.bind_eq_none_iff]
      intro _ _ _ _ q1 _ q2 _ q3 _ q4 _ q5 h5
      rw [ih l _ _ (by simp at hl; omega) (by simp at he; omega)] at h5
      cases h5

theorem normalise_length {s s' : List (Cf .w32 R)} (h : normalise s = some s') :
    s'.length = s.length := by
  unfold normalise at h
  simp only at h
  split at h
  · exact mapM_length h
  · cases h; rfl

theorem point_odd (samples : Nat) (he : samples % 2 = 1) (thr : R) (train test : Nat) :
    point samples thr train test = none := by
  rw [point]
  simp only [Option.bind_eq_bind, Option.bind_eq_none_iff]
  intro q1 _ q2 _ q3 _ q4 _ clean hc cleanT _ ch hch q5 h5
  have hl := normalise_length hc
  simp only [List.length_map, times, List.length_range] at hl
  simp only [chunks, chunksPos] at hch
  rw [if_neg (by norm_num)] at hch
  cases hch
  rw [corruptTrain_odd thr _ clean _ _ le_rfl (by omega)] at h5
  cases h5

theorem point_overflow (samples : Nat) (thr : R) (train test : Nat)
    (h : ¬ (1103515245 * train + 12345 < 2 ^ 128 ∧ 1103515245 * test + 12345 < 2 ^ 128)) :
    point samples thr train test = none := by
  rw [point]
  simp only [Option.bind_eq_bind, Option.bind_eq_none_iff]
  intro q1 e1 q2 _ q3 e3
  exfalso
  apply h
  constructor
  · refine Classical.byContradiction fun h => ?_
    rw [Rng.lcgi, step_none train h] at e1
    cases e1
  · refine Classical.byContradiction fun h => ?_
    rw [Rng.lcgi, step_none test h] at e3
    cases e3

theorem reconstruction_none (samples : Nat) (thr : R) (b : Nat) (hb : 0 < b) (train test : Nat)
    (d dt : Dataset (Cf .w32 R)) (h : point samples thr train test = none) :
    reconstruction samples thr b train test d dt = none := by
  obtain ⟨n, rfl⟩ : ∃ n, b = n + 1 := ⟨b - 1, by omega⟩
  rw [reconstruction, h]
  rfl

end any

end Signal

open Signal

/-- C61, exact arithmetic. For an even number of samples and seeds the generator can hold, both
batches have `b` points; every point has `samples` inputs, its target is a normalised sum of one to
nine waves of modulus at most 1 with peak 1; with noise threshold 0 inputs and targets agree.
(Missing: other seeds, which panic, see `C61_refuted_seed`.) -/
theorem C61_partial (samples : Nat) (he : samples % 2 = 0) (thr : ℝ) (b train test : Nat)
    (h1 : 1103515245 * train + 12345 < 2 ^ 128) (h2 : 1103515245 * test + 12345 < 2 ^ 128) :
    ∃ dTrain dTest s st, reconstruction samples thr b train test Dataset.new Dataset.new
        = some ((dTrain, dTest), s, st)
      ∧ dTrain.nPoints = b ∧ dTest.nPoints = b
      ∧ ∀ p, p ∈ dTrain.points ∨ p ∈ dTest.points → ∃ x y, p = (.scalar x, .scalar y)
        ∧ x.length = samples ∧ CleanSignal samples y ∧ (thr = 0 → x = y) := by
  obtain ⟨ps, pst, s, st, e, l1, l2, g1, g2⟩ := reconstruction_ok samples he thr b train test [] []
    h1 h2
  refine ⟨_, _, s, st, e, ?_, ?_, ?_⟩
  · rw [(C58_points _).1]; exact l1
  · rw [(C58_points _).1]; exact l2
  · rw [(C58_points _).2.2.2.1, (C58_points _).2.2.2.1]
    rintro p (hp | hp)
    · exact g1 p hp
    · exact g2 p hp

/-- C61 in any arithmetic: an odd number of samples panics. -/
theorem C61_odd_panics {R : Type} [Scalar R] (samples : Nat) (he : samples % 2 = 1) (thr : R)
    (b : Nat) (hb : 0 < b) (train test : Nat) (d dt : Dataset (Cf .w32 R)) :
    reconstruction samples thr b train test d dt = none :=
  reconstruction_none samples thr b hb train test d dt (point_odd samples he thr train test)

/-- C61 is false for seeds near the top of the 128-bit range: the generator overflows. -/
theorem C61_refuted_seed {R : Type} [Scalar R] (samples : Nat) (thr : R) (b : Nat) (hb : 0 < b)
    (train test : Nat) (d dt : Dataset (Cf .w32 R))
    (h : ¬ (1103515245 * train + 12345 < 2 ^ 128 ∧ 1103515245 * test + 12345 < 2 ^ 128)) :
    reconstruction samples thr b train test d dt = none :=
  reconstruction_none samples thr b hb train test d dt (point_overflow samples thr train test h)

example : 64 % 2 = 0 ∧ 1103515245 * 891298565 + 12345 < 2 ^ 128
    ∧ ¬ (1103515245 * (2 ^ 128 - 1) + 12345 < 2 ^ 128) := by norm_num

end Renplex
