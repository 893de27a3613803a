import Verif.Props.Signal
import Verif.Props.IeeeRandom
import Verif.Props.IeeeAct
/-!
# The noise of the synthetic signals in `f32`: C61

The amplitude of the noise is `sqrt(-2 ln u)` with a draw `u` that may be zero.
-/

namespace Renplex

section lost
variable {B : Binary}

theorem Fp.add_lost {a b : Fp B} (h : ¬ b.Finite) : ¬ (a.add b).Finite := by
  cases a <;> cases b <;> simp_all [Fp.add, Fp.Finite]
  split
  · rename_i e; split at e <;> cases e
  · exact fun h => h

theorem Fp.mul_lost {a b : Fp B} (h : ¬ b.Finite) : ¬ (a.mul b).Finite := by
  cases a <;> cases b <;> simp_all [Fp.mul, Fp.Finite]
  split
  · rename_i e; split at e <;> cases e
  · exact fun h => h

theorem Fp.mul_lost' {a b : Fp B} (h : ¬ a.Finite) : ¬ (a.mul b).Finite := by
  cases a <;> cases b <;> simp_all [Fp.mul, Fp.Finite]
  split
  · rename_i e; split at e <;> cases e
  · exact fun h => h

theorem Fp.sqrt_lost {a : Fp B} (h : ¬ a.Finite) : ¬ a.sqrt.Finite := by
  cases a <;> simp_all [Fp.sqrt, Fp.Finite]
  split
  · rename_i e; split at e <;> cases e
  · exact fun h => h

theorem Fp.eq_zero_of_val {a : Fp B} (h : a.Finite) (h0 : a.val = 0) : ∃ s, a = .zero s := by
  cases a with
  | nan => exact h.elim
  | inf s => exact h.elim
  | num s m k hs =>
    have hm : m = 0 := (Fp.val_eq_zero s hs).mp h0
    subst hm
    obtain rfl : k = B.kmin := hs.2.2.2.resolve_left (by simp)
    exact ⟨s, rfl⟩

end lost

namespace Signal

/-- Neither part is a number. -/
def Lost {B : Binary} {L : Libm B} (z : Cf .w32 (Fl L)) : Prop := ¬ z.x.fp.Finite ∧ ¬ z.y.fp.Finite

section any
variable {R : Type} [Scalar R]

theorem lcgf_next {seed : Nat} {q : R × Nat} (h : Rng.lcgf (R := R) seed = some q) :
    q.2 = lcgNext seed ∧ Fits seed := by
  by_cases hs : 1103515245 * seed + 12345 < 2 ^ 128
  · rw [Rng.lcgf, step_eq seed hs] at h
    cases h
    exact ⟨rfl, hs⟩
  · rw [Rng.lcgf, step_none seed hs] at h
    cases h

theorem lcgi_next {seed l : Nat} {q : Nat × Nat} (h : Rng.lcgi seed l = some q) :
    q.2 = lcgNext seed ∧ q.1 = lcgNext seed / ((2 ^ 31 - 1) / l) := by
  by_cases hs : 1103515245 * seed + 12345 < 2 ^ 128
  · rw [Rng.lcgi, step_eq seed hs] at h
    simp only [Option.bind_eq_bind, Option.bind_some] at h
    split at h
    · cases h
    · split at h
      · cases h
      · cases h
        exact ⟨rfl, rfl⟩
  · rw [Rng.lcgi, step_none seed hs] at h
    cases h

theorem waves_next (n : Nat) : ∀ {seed : Nat} {q : List (R × R × R) × Nat},
    waves (R := R) n seed = some q → q.2 = lcgNext^[3 * n] seed := by
  induction n with
  | zero => intro seed q h; cases h; rfl
  | succ n ih =>
    intro seed q h
    rw [waves] at h
    simp only [Option.bind_eq_bind, Option.bind_eq_some_iff] at h
    obtain ⟨w, hw, rest, hr, e⟩ := h
    cases e
    rw [wave] at hw
    simp only [Option.bind_eq_bind, Option.bind_eq_some_iff] at hw
    obtain ⟨a, ha, b, hb, c, hc, e⟩ := hw
    cases e
    rw [ih hr, (lcgf_next hc).1, (lcgf_next hb).1, (lcgf_next ha).1,
      show 3 * (n + 1) = 3 * n + 1 + 1 + 1 by omega]
    simp only [Function.iterate_succ_apply]

theorem noisyPair_two (thr : R) (e1 e2 : Cf .w32 R) (u1 u2 v1 v2 : R) :
    (noisyPair thr e1 e2 u1 u2 v1 v2).length = 2 := by simp [noisyPair]

theorem reconstruction_keeps (samples : Nat) (thr : R) (b : Nat) :
    ∀ (train test : Nat) (d dt : List (IOType (Cf .w32 R) × IOType (Cf .w32 R))) (r),
    reconstruction samples thr b train test (Dataset.ofPoints d) (Dataset.ofPoints dt) = some r →
    ∃ ps pst, r.1.1.points = d ++ ps ∧ r.1.2.points = dt ++ pst := by
  induction b with
  | zero =>
    intro train test d dt r h
    cases h
    exact ⟨[], [], by simp [(C58_points _).2.2.2.1], by simp [(C58_points _).2.2.2.1]⟩
  | succ b ih =>
    intro train test d dt r h
    rw [reconstruction] at h
    simp only [Option.bind_eq_bind, Option.bind_eq_some_iff] at h
    obtain ⟨p, -, h⟩ := h
    rw [C58_add, C58_add] at h
    obtain ⟨ps, pst, e1, e2⟩ := ih _ _ _ _ r h
    exact ⟨_ :: ps, _ :: pst, by rw [e1, List.append_assoc]; rfl, by rw [e2, List.append_assoc]; rfl⟩

end any

variable {L : Libm binary32}

theorem draw_zero {seed : Nat} (hs : lcgNext seed = 0) {q : Fl L × Nat} (h : Rng.lcgf (R := Fl L) seed = some q) :
    ∃ s, q.1.fp = .zero s := by
  have hf := (lcgf_next h).2
  have e : Rng.lcgf32 seed = some (0, 0) := by
    rw [Rng.lcgf32, step_eq seed hf, hs]
    rfl
  obtain ⟨d, h1, h2, h3⟩ := ((C25_ieee seed L (Libm.rounded binary64)).1 0 0).mp e
  rw [h] at h1
  cases h1
  exact Fp.eq_zero_of_val h2 (by rw [h3]; simp)

theorem noisyPair_lost (hL : L.Standard) (thr : Fl L) (e1 e2 : Cf .w32 (Fl L)) {u1 : Fl L} {s : Bool}
    (hu : u1.fp = .zero s) (u2 v1 v2 : Fl L) :
    ∃ a b, noisyPair thr e1 e2 u1 u2 v1 v2 = [a, b] ∧ Lost a ∧ Lost b := by
  have hr : ¬ (Scalar.sqrt (Scalar.mul (Scalar.lit (-2) 1) (Scalar.ln u1)) : Fl L).fp.Finite := by
    refine Fp.sqrt_lost (Fp.mul_lost ?_)
    change ¬ (L.ln u1.fp).Finite
    rw [hu, hL.ln_zero]
    exact fun h => h
  have hz : ∀ c n : Fl L, ¬ (Scalar.mul (Scalar.mul (Scalar.sqrt
      (Scalar.mul (Scalar.lit (-2) 1) (Scalar.ln u1)) : Fl L) c) n).fp.Finite :=
    fun c n => Fp.mul_lost' (Fp.mul_lost' hr)
  have hn : ∀ (e : Cf .w32 (Fl L)) (z p : Fl L), ¬ z.fp.Finite → Lost (Cf.add e (Cf.newe z p)) :=
    fun e z p h => ⟨Fp.add_lost (Fp.mul_lost' h), Fp.add_lost (Fp.mul_lost' h)⟩
  exact ⟨_, _, rfl, hn _ _ _ (hz _ _), hn _ _ _ (hz _ _)⟩

theorem corruptTrain_lost (hL : L.Standard) (thr : Fl L) (cs : List (List (Cf .w32 (Fl L)))) :
    ∀ (train test j : Nat) (r), lcgNext^[2 * j + 1] test = 0 → j < cs.length →
      corruptTrain thr cs train test = some r →
      ∃ a b, r.1[2 * j]? = some a ∧ r.1[2 * j + 1]? = some b ∧ Lost a ∧ Lost b := by
  induction cs with
  | nil => intro train test j r _ hj; simp at hj
  | cons c cs ih =>
    intro train test j r h0 hj h
    rw [corruptTrain] at h
    simp only [Option.bind_eq_bind, Option.bind_eq_some_iff] at h
    obtain ⟨e1, -, e2, -, u1, h1, u2, h2, v1, h3, v2, h4, rest, hr, e⟩ := h
    cases e
    cases j with
    | zero =>
      rw [show 2 * 0 + 1 = 1 from rfl, Function.iterate_one] at h0
      obtain ⟨s, hs⟩ := draw_zero h0 h1
      obtain ⟨a, b, e, ha, hb⟩ := noisyPair_lost hL thr e1 e2 hs u2.1 v1.1 v2.1
      exact ⟨a, b, by rw [e]; simp, by rw [e]; simp, ha, hb⟩
    | succ j =>
      have := ih v2.2 u2.2 j rest (by
        rw [(lcgf_next h2).1, (lcgf_next h1).1]
        rw [show 2 * (j + 1) + 1 = 2 * j + 1 + 1 + 1 by omega, Function.iterate_succ_apply,
          Function.iterate_succ_apply] at h0
        exact h0) (by simpa using hj) hr
      obtain ⟨a, b, ha, hb, la, lb⟩ := this
      refine ⟨a, b, ?_, ?_, la, lb⟩
      · rw [List.getElem?_append_right (by rw [noisyPair_two]; omega), noisyPair_two, ← ha]
        congr 1
      · rw [List.getElem?_append_right (by rw [noisyPair_two]; omega), noisyPair_two, ← hb]
        congr 1

theorem point_lost (hL : L.Standard) (samples : Nat) (thr : Fl L) (train test j : Nat)
    (hj : 2 * j + 1 < samples) (h0 : lcgNext^[1 + 3 * waveCount test + 2 * j + 1] test = 0) (r)
    (h : point samples thr train test = some r) :
    ∃ a b, r.1.1[2 * j]? = some a ∧ r.1.1[2 * j + 1]? = some b ∧ Lost a ∧ Lost b := by
  rw [point] at h
  simp only [Option.bind_eq_bind, Option.bind_eq_some_iff] at h
  obtain ⟨k, -, ws, -, kt, h3, wst, h4, clean, h5, cleanT, -, ch, h7, corr, h8, -, -, corrT, -, e⟩ := h
  cases e
  have hl := normalise_length h5
  simp only [List.length_map, times, List.length_range] at hl
  simp only [chunks, chunksPos] at h7
  rw [if_neg (by norm_num)] at h7
  cases h7
  refine corruptTrain_lost hL thr _ _ _ j _ ?_ ?_ h8
  · rw [waves_next _ h4, (lcgi_next h3).1, (lcgi_next h3).2, ← Function.iterate_succ_apply,
      ← Function.iterate_add_apply]
    rw [waveCount] at h0
    generalize lcgNext test / ((2 ^ 31 - 1) / 8) = K at h0 ⊢
    have e : 2 * j + 1 + (3 * (K + 1)).succ = 1 + 3 * (K + 1) + 2 * j + 1 := by omega
    rw [e]
    exact h0
  · have : ∀ (fuel : Nat) (l : List (Cf .w32 (Fl L))), l.length ≤ fuel → 2 * j + 1 < l.length →
        j < (chunksAux 2 fuel l).length := by
      clear hj h0 hl h8
      induction j with
      | zero =>
        intro fuel l h1 h2
        obtain ⟨fuel, rfl⟩ : ∃ k, fuel = k + 1 := ⟨fuel - 1, by omega⟩
        match l, h2 with
        | a :: l, _ => simp [chunksAux]
      | succ j ih =>
        intro fuel l h1 h2
        obtain ⟨fuel, rfl⟩ : ∃ k, fuel = k + 1 := ⟨fuel - 1, by omega⟩
        match l, h1, h2 with
        | a :: b :: l, h1, h2 =>
          have := ih fuel l (by simp at h1; omega) (by simp at h2; omega)
          simpa [chunksAux] using this
        | [a], _, h2 => simp at h2
    exact this _ _ le_rfl (by omega)

end Signal

open Signal

/-- C61 is false in `f32` for some seeds: if a draw for the modulus of the noise is zero (draws are, at
some seed, whatever the number of waves), then the two samples of the first training input it is for are
not numbers (`ln 0` is infinite), for every threshold — also 0, where the noise should vanish — and
every training seed. -/
theorem C61_refuted_ieee {L : Libm binary32} (hL : L.Standard) (samples : Nat) (thr : Fl L) (b : Nat)
    (hb : 0 < b) (train test j : Nat) (hj : 2 * j + 1 < samples)
    (h0 : lcgNext^[1 + 3 * waveCount test + 2 * j + 1] test = 0) (r)
    (h : reconstruction samples thr b train test Dataset.new Dataset.new = some r) :
    ∃ x y z₁ z₂, r.1.1.points[0]? = some (.scalar x, .scalar y)
      ∧ x[2 * j]? = some z₁ ∧ x[2 * j + 1]? = some z₂ ∧ Lost z₁ ∧ Lost z₂ := by
  obtain ⟨n, rfl⟩ : ∃ n, b = n + 1 := ⟨b - 1, by omega⟩
  rw [reconstruction] at h
  simp only [Option.bind_eq_bind, Option.bind_eq_some_iff] at h
  obtain ⟨p, hp, h⟩ := h
  obtain ⟨z₁, z₂, h1, h2, l1, l2⟩ := point_lost hL samples thr train test j hj h0 p hp
  obtain ⟨ps, -, e, -⟩ := reconstruction_keeps samples thr n _ _ [_] [_] r h
  exact ⟨p.1.1, p.1.2, z₁, z₂, by rw [e]; rfl, h1, h2, l1, l2⟩


example : lcgNext^[1 + 3 * waveCount 285924089 + 2 * 3 + 1] 285924089 = 0 := by
  have h : waveCount 285924089 = 3 := by norm_num [waveCount, lcgNext]
  rw [h]
  norm_num [lcgNext, Function.iterate_succ_apply]

end Renplex
