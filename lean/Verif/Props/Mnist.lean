import Verif.Spec.Mnist
import Verif.Props.Data
import Verif.Props.Complex
/-!
# MNIST batches: C60
-/

namespace Renplex
namespace Mnist

/-- The files after the header and `r` records were read. -/
def at_ (recs : List Record) (r : Nat) : St :=
  ⟨(recs.drop r).flatMap (·.image), (recs.drop r).map (·.label), r + 8⟩

theorem skipHeader_files {hi hl : List UInt8} (h1 : hi.length = 16) (h2 : hl.length = 8)
    (recs : List Record) : skipHeader (files hi hl recs) = at_ recs 0 := by
  simp [skipHeader, files, at_, read, h1, h2]

theorem skipHeader_at (recs : List Record) (r : Nat) : skipHeader (at_ recs r) = at_ recs r := by
  simp [skipHeader, at_]

variable {α : Type} {pixel : Nat → Run α} {hot : Nat → Run (List α)} {p : Nat → α} {z o : α}

theorem read_prefix {a b : List UInt8} {buf : List UInt8} (h : buf.length = a.length) :
    read (a ++ b) buf = (b, a, a.length) := by
  simp [read, h]

theorem read_nil (buf : List UInt8) : read [] buf = ([], buf, 0) := by simp [read]

/-- The point made from the buffers. -/
theorem buf_point (hp : ∀ b, b < 256 → pixel b = some (p b))
    (hh : ∀ l, l < 10 → hot l = some (oneHotVec z o 10 l)) {r : Record} (hr : r.WF) :
    (r.image.mapM fun b => pixel b.toNat) = some (r.image.map fun b => p b.toNat)
      ∧ hot r.label.toNat = some (oneHotVec z o 10 r.label.toNat) :=
  ⟨mapM_some_of _ _ _ fun b _ => hp _ b.toNat_lt, hh _ hr.2⟩

/-- One more record. -/
theorem loop_succ (hp : ∀ b, b < 256 → pixel b = some (p b))
    (hh : ∀ l, l < 10 → hot l = some (oneHotVec z o 10 l)) {recs : List Record}
    (hw : ∀ r ∈ recs, r.WF) {r : Nat} (hr : r < recs.length) (n : Nat) {ib lb : List UInt8}
    (hib : ib.length = 784) (hlb : lb.length = 1) (d : Dataset α) :
    loop pixel hot (n + 1) (at_ recs r) ib lb d
      = if r + 1 = 60000 then some (d.addPoint (recs[r].point p z o), at_ recs (r + 1))
        else loop pixel hot n (at_ recs (r + 1)) recs[r].image [recs[r].label]
          (d.addPoint (recs[r].point p z o)) := by
  have hwr := hw recs[r] (List.getElem_mem hr)
  obtain ⟨h1, h2⟩ := buf_point hp hh hwr
  have hdrop : recs.drop r = recs[r] :: recs.drop (r + 1) := List.drop_eq_getElem_cons hr
  have hat : at_ recs r = ⟨recs[r].image ++ (recs.drop (r + 1)).flatMap (·.image),
      [recs[r].label] ++ (recs.drop (r + 1)).map (·.label), r + 8⟩ := by
    rw [at_, hdrop]; rfl
  rw [hat, loop]
  simp only [read_prefix (hib.trans hwr.1.symm),
    read_prefix (show lb.length = [recs[r].label].length from hlb), h1, h2, Option.bind_eq_bind,
    Option.bind_some, List.head?_cons, List.length_singleton, trainLabelSize]
  have e : r + 8 + 1 = r + 1 + 8 := by omega
  rw [e]
  by_cases h : r + 1 = 60000
  · rw [if_pos (by omega), if_pos h]; rfl
  · rw [if_neg (by omega), if_neg h]; rfl

/-- A call delivers the records from where the previous call stopped. -/
theorem loop_at (hp : ∀ b, b < 256 → pixel b = some (p b))
    (hh : ∀ l, l < 10 → hot l = some (oneHotVec z o 10 l)) {recs : List Record}
    (hw : ∀ r ∈ recs, r.WF) (n : Nat) : ∀ (r : Nat) (ib lb : List UInt8) (d : Dataset α),
    ib.length = 784 → lb.length = 1 → advance r n ≤ recs.length →
    loop pixel hot n (at_ recs r) ib lb d
      = some ((((recs.drop r).take (advance r n - r)).map (Record.point p z o)).foldl
          Dataset.addPoint d, at_ recs (advance r n)) := by
  induction n with
  | zero =>
    intro r ib lb d _ _ _
    have : advance r 0 = r := by unfold advance; split <;> omega
    rw [this]; simp [loop]
  | succ n ih =>
    intro r ib lb d hib hlb had
    have hle : r + 1 ≤ advance r (n + 1) := by unfold advance; split <;> omega
    have hr : r < recs.length := by omega
    have hdrop : recs.drop r = recs[r] :: recs.drop (r + 1) := List.drop_eq_getElem_cons hr
    rw [loop_succ hp hh hw hr n hib hlb]
    by_cases h : r + 1 = 60000
    · have e : advance r (n + 1) = r + 1 := by unfold advance; split <;> omega
      rw [if_pos h, e, hdrop, show r + 1 - r = 0 + 1 by omega, List.take_succ_cons, List.take_zero]
      rfl
    · have e : advance r (n + 1) = advance (r + 1) n := by
        unfold advance; split <;> split <;> omega
      have hle' : r + 1 ≤ advance (r + 1) n := by omega
      rw [if_neg h, ih (r + 1) _ _ _ (hw _ (List.getElem_mem hr)).1 rfl (by omega), e, hdrop,
        show advance (r + 1) n - r = (advance (r + 1) n - (r + 1)) + 1 by omega,
        List.take_succ_cons]
      rfl

/-- Past the end of the files the buffers keep what they had. -/
theorem loop_past (hp : ∀ b, b < 256 → pixel b = some (p b))
    (hh : ∀ l, l < 10 → hot l = some (oneHotVec z o 10 l)) (recs : List Record) (r : Nat)
    (hr : r = recs.length) (hN : r ≠ 60000) (q : Record) (hq : q.WF) (n : Nat) :
    ∀ d : Dataset α, loop pixel hot n (at_ recs r) q.image [q.label] d
      = some ((List.replicate n (q.point p z o)).foldl Dataset.addPoint d, at_ recs r) := by
  have hat : at_ recs r = ⟨[], [], r + 8⟩ := by simp [at_, hr]
  obtain ⟨h1, h2⟩ := buf_point hp hh hq
  rw [hat]
  induction n with
  | zero => intro d; rfl
  | succ n ih =>
    intro d
    rw [loop]
    simp only [read_nil, h1, h2, Option.bind_eq_bind, Option.bind_some, List.head?_cons,
      trainLabelSize, Nat.add_zero]
    rw [if_neg (by omega)]
    exact ih _

/-- A batch that runs past the end of a file with fewer than 60000 records is filled up with copies
of the last record. -/
theorem loop_over (hp : ∀ b, b < 256 → pixel b = some (p b))
    (hh : ∀ l, l < 10 → hot l = some (oneHotVec z o 10 l)) {recs : List Record}
    (hw : ∀ r ∈ recs, r.WF) (hN : recs.length < 60000) (n : Nat) :
    ∀ (r : Nat) (q : Record) (d : Dataset α), q.WF → r ≤ recs.length → recs.length ≤ r + n →
    loop pixel hot n (at_ recs r) q.image [q.label] d
      = some (((recs.drop r).map (Record.point p z o)
          ++ List.replicate (r + n - recs.length)
            (((recs.drop r).getLastD q).point p z o)).foldl Dataset.addPoint d,
        at_ recs recs.length) := by
  induction n with
  | zero =>
    intro r q d _ h1 h2
    have : r = recs.length := by omega
    subst this
    simp [loop]
  | succ n ih =>
    intro r q d hq h1 h2
    rcases Nat.lt_or_ge r recs.length with hr | hr
    · have hdrop : recs.drop r = recs[r] :: recs.drop (r + 1) := List.drop_eq_getElem_cons hr
      rw [loop_succ hp hh hw hr n hq.1 rfl, if_neg (by omega),
        ih (r + 1) recs[r] _ (hw _ (List.getElem_mem hr)) (by omega) (by omega), hdrop,
        show r + (n + 1) = r + 1 + n by omega]
      rw [List.getLastD_cons]
      rfl
    · have : r = recs.length := by omega
      subst this
      rw [loop_past hp hh recs _ rfl (by omega) q hq]
      simp

/-- A call on an exhausted training file delivers one point made from the zeroed buffers. -/
theorem loop_end (hp : ∀ b, b < 256 → pixel b = some (p b))
    (hh : ∀ l, l < 10 → hot l = some (oneHotVec z o 10 l)) {recs : List Record}
    (hN : recs.length = 60000) (q : Record) (hq : q.WF) (n : Nat) (d : Dataset α) :
    loop pixel hot (n + 1) (at_ recs 60000) q.image [q.label] d
      = some (d.addPoint (q.point p z o), at_ recs 60000) := by
  have hat : at_ recs 60000 = ⟨[], [], 60008⟩ := by simp [at_, ← hN]
  obtain ⟨h1, h2⟩ := buf_point hp hh hq
  rw [hat, loop]
  simp only [read_nil, h1, h2, Option.bind_eq_bind, Option.bind_some, List.head?_cons,
    trainLabelSize, Nat.add_zero]
  rfl

/-- A black image labelled 0. -/
def blank : Record := ⟨List.replicate 784 0, 0⟩

theorem blank_WF : blank.WF :=
  ⟨List.length_replicate, show (0 : UInt8).toNat < 10 by decide⟩

/-- The call both readers consist of. -/
def readBatch (pixel : Nat → Run α) (hot : Nat → Run (List α)) (b : Nat) (s : St) :
    Run (Dataset α × St) :=
  loop pixel hot b (skipHeader s) (List.replicate (28 * 28) 0) [0] Dataset.new

theorem readBatch_files {hi hl : List UInt8} (h1 : hi.length = 16) (h2 : hl.length = 8)
    (recs : List Record) (b : Nat) :
    readBatch pixel hot b (files hi hl recs) = readBatch pixel hot b (at_ recs 0) := by
  rw [readBatch, readBatch, skipHeader_files h1 h2, skipHeader_at]

theorem calls_files {hi hl : List UInt8} (h1 : hi.length = 16) (h2 : hl.length = 8)
    (recs : List Record) (b : Nat) (bs : List Nat) :
    calls (readBatch pixel hot) (b :: bs) (files hi hl recs)
      = calls (readBatch pixel hot) (b :: bs) (at_ recs 0) := by
  rw [calls, calls, readBatch_files h1 h2]

theorem readBatch_at (hp : ∀ b, b < 256 → pixel b = some (p b))
    (hh : ∀ l, l < 10 → hot l = some (oneHotVec z o 10 l)) {recs : List Record}
    (hw : ∀ r ∈ recs, r.WF) (n r : Nat) (h : advance r n ≤ recs.length) :
    readBatch pixel hot n (at_ recs r)
      = some (Dataset.ofPoints (((recs.drop r).take (advance r n - r)).map (Record.point p z o)),
        at_ recs (advance r n)) := by
  rw [readBatch, skipHeader_at, loop_at hp hh hw n r _ _ _ List.length_replicate rfl h]
  rfl

theorem le_advance (r b : Nat) : r ≤ advance r b ∧ advance r b ≤ r + b := by
  unfold advance; split <;> omega

theorem le_foldl_advance (sizes : List Nat) (r : Nat) : r ≤ sizes.foldl advance r := by
  induction sizes generalizing r with
  | nil => exact Nat.le_refl _
  | cons b bs ih => exact Nat.le_trans (le_advance r b).1 (ih _)

theorem foldl_advance (sizes : List Nat) (r : Nat) (h : r + sizes.sum ≤ 60000) :
    sizes.foldl advance r = r + sizes.sum := by
  induction sizes generalizing r with
  | nil => rfl
  | cons b bs ih =>
    rw [List.sum_cons] at h ⊢
    have : advance r b = r + b := by unfold advance; split <;> omega
    rw [List.foldl_cons, this, ih _ (by omega)]
    omega

theorem calls_at (hp : ∀ b, b < 256 → pixel b = some (p b))
    (hh : ∀ l, l < 10 → hot l = some (oneHotVec z o 10 l)) {recs : List Record}
    (hw : ∀ r ∈ recs, r.WF) (sizes : List Nat) : ∀ r, sizes.foldl advance r ≤ recs.length →
    ∃ ds, calls (readBatch pixel hot) sizes (at_ recs r)
        = some (ds, at_ recs (sizes.foldl advance r))
      ∧ ds.flatMap Dataset.points
        = ((recs.drop r).take (sizes.foldl advance r - r)).map (Record.point p z o)
      ∧ List.Forall₂ (fun d b => d.nPoints ≤ b) ds sizes
      ∧ (r + sizes.sum ≤ 60000 → ds.map Dataset.nPoints = sizes) := by
  induction sizes with
  | nil => exact fun r _ => ⟨[], rfl, by simp, .nil, fun _ => rfl⟩
  | cons b bs ih =>
    intro r h
    rw [List.foldl_cons] at h ⊢
    have h1 := le_advance r b
    have h2 := le_foldl_advance bs (advance r b)
    obtain ⟨ds, e, hpts, hlen, hex⟩ := ih _ h
    have hn : (Dataset.ofPoints (((recs.drop r).take (advance r b - r)).map
        (Record.point p z o))).nPoints = advance r b - r := by
      rw [(C58_points _).1]
      simp; omega
    refine ⟨Dataset.ofPoints (((recs.drop r).take (advance r b - r)).map (Record.point p z o)) :: ds,
      ?_, ?_, .cons ?_ hlen, ?_⟩
    · rw [calls, readBatch_at hp hh hw b r (by omega), Option.bind_eq_bind, Option.bind_some]
      simp only
      rw [e]
      rfl
    · rw [List.flatMap_cons, hpts, (C58_points _).2.2.2.1, ← List.map_append]
      congr 1
      generalize List.foldl advance (advance r b) bs = q at *
      rw [show q - r = (advance r b - r) + (q - advance r b) by omega, List.take_add,
        List.drop_drop, show r + (advance r b - r) = advance r b by omega]
    · rw [hn]; omega
    · intro hs
      rw [List.sum_cons] at hs
      have : advance r b = r + b := by unfold advance; split <;> omega
      rw [List.map_cons, hn, hex (by omega)]
      congr 1
      omega

theorem history (hp : ∀ b, b < 256 → pixel b = some (p b))
    (hh : ∀ l, l < 10 → hot l = some (oneHotVec z o 10 l)) {hi hl : List UInt8}
    (h1 : hi.length = 16) (h2 : hl.length = 8) {recs : List Record} (hw : ∀ r ∈ recs, r.WF)
    (sizes : List Nat) (hs : sizes.foldl advance 0 ≤ recs.length) :
    ∃ ds s, calls (readBatch pixel hot) sizes (files hi hl recs) = some (ds, s)
      ∧ ds.flatMap Dataset.points
        = (recs.take (sizes.foldl advance 0)).map (Record.point p z o)
      ∧ List.Forall₂ (fun d b => d.nPoints ≤ b) ds sizes
      ∧ (sizes.sum ≤ 60000 → ds.map Dataset.nPoints = sizes) := by
  cases sizes with
  | nil => exact ⟨[], _, rfl, by simp, .nil, fun _ => rfl⟩
  | cons b bs =>
    obtain ⟨ds, e, hpts, hlen, hex⟩ := calls_at hp hh hw (b :: bs) 0 hs
    exact ⟨ds, _, (calls_files h1 h2 recs b bs).trans e, by simpa using hpts, hlen,
      by simpa using hex⟩

theorem over (hp : ∀ b, b < 256 → pixel b = some (p b))
    (hh : ∀ l, l < 10 → hot l = some (oneHotVec z o 10 l)) {hi hl : List UInt8}
    (h1 : hi.length = 16) (h2 : hl.length = 8) {recs : List Record} (hw : ∀ r ∈ recs, r.WF)
    (hN : recs.length < 60000) (b : Nat) (hb : recs.length ≤ b) :
    ∃ d s, readBatch pixel hot b (files hi hl recs) = some (d, s)
      ∧ d.points = recs.map (Record.point p z o)
        ++ List.replicate (b - recs.length) ((recs.getLastD blank).point p z o)
      ∧ d.nPoints = b := by
  refine ⟨Dataset.ofPoints (recs.map (Record.point p z o)
      ++ List.replicate (b - recs.length) ((recs.getLastD blank).point p z o)),
    at_ recs recs.length, ?_, ?_, ?_⟩
  · rw [readBatch_files h1 h2, readBatch, skipHeader_at]
    have := loop_over hp hh hw hN b 0 blank Dataset.new blank_WF (by omega) (by omega)
    rw [Nat.zero_add] at this
    exact this
  · rw [(C58_points _).2.2.2.1]
  · rw [(C58_points _).1]; simp [hb]

theorem past_end (hp : ∀ b, b < 256 → pixel b = some (p b))
    (hh : ∀ l, l < 10 → hot l = some (oneHotVec z o 10 l)) {hi hl : List UInt8}
    (h1 : hi.length = 16) (h2 : hl.length = 8) {recs : List Record} (hw : ∀ r ∈ recs, r.WF)
    (hN : recs.length = 60000) (b : Nat) (hb : 0 < b) :
    ∃ d₁ d₂ s, calls (readBatch pixel hot) [60000, b] (files hi hl recs) = some ([d₁, d₂], s)
      ∧ d₁.points = recs.map (Record.point p z o) ∧ d₂.points = [blank.point p z o] := by
  have ha : advance 0 60000 = 60000 := rfl
  have e1 := readBatch_at hp hh hw 60000 0 (by rw [ha, hN])
  rw [ha] at e1
  have e2 : readBatch pixel hot b (at_ recs 60000)
      = some (Dataset.ofPoints [blank.point p z o], at_ recs 60000) := by
    obtain ⟨n, rfl⟩ : ∃ n, b = n + 1 := ⟨b - 1, by omega⟩
    rw [readBatch, skipHeader_at]
    exact loop_end hp hh hN blank blank_WF n _
  refine ⟨Dataset.ofPoints (((recs.drop 0).take (60000 - 0)).map (Record.point p z o)),
    Dataset.ofPoints [blank.point p z o], at_ recs 60000, ?_, ?_, ?_⟩
  · rw [calls_files h1 h2, calls, e1]
    simp only [Option.bind_eq_bind, Option.bind_some]
    rw [calls, e2]
    rfl
  · rw [(C58_points _).2.2.2.1, List.drop_zero, ← hN]; simp
  · rw [(C58_points _).2.2.2.1]

/-! ## The two readers in exact arithmetic -/

/-- The point a record stands for, as complex numbers: pixels `byte / 255`. -/
noncomputable def Record.cpoint (w : Width) (r : Record) : IOType (Cf w ℝ) × IOType (Cf w ℝ) :=
  r.point (fun b => Cf.ofC ((b : ℂ) / 255)) 0 1

/-- The point a record stands for, as real numbers: pixels `byte / 255`. -/
noncomputable def Record.rpoint (r : Record) : IOType ℝ × IOType ℝ :=
  r.point (fun b => (b : ℝ) / 255) 0 1

theorem cpixel {w : Width} (b : Nat) :
    BasicOps.div (CplxOps.ofUsize b : Cf w ℝ) (CplxOps.ofUsize 255)
      = some (Cf.ofC ((b : ℂ) / 255)) := by
  obtain ⟨q, h1, h2⟩ := div_toC (Cf.ofUsize b : Cf w ℝ) (Cf.ofUsize 255)
    (by rw [Cf.toC_ofUsize]; norm_num)
  rw [Cf.toC_ofUsize, Cf.toC_ofUsize] at h2
  refine Eq.trans h1 (congrArg some (Cf.toC_inj.mp ?_))
  rw [h2]
  push_cast
  rfl

theorem rpixel (b : Nat) :
    BasicOps.div (RealOps.ofUsize b : ℝ) (RealOps.ofUsize 255) = some ((b : ℝ) / 255) := by
  simp [BasicOps.div, RealOps.ofUsize]

theorem chot {w : Width} (l : Nat) (hl : l < 10) :
    (genPred (CplxOps.unit : Cf w ℝ) degree l >>= unwrap) = some (oneHotVec 0 1 10 l) := by
  rw [degree, (C59_partial_exact 10 l hl).1]; rfl

theorem rhot (l : Nat) (hl : l < 10) :
    (genPred (RealOps.runit : ℝ) degree l >>= unwrap) = some (oneHotVec 0 1 10 l) := by
  rw [degree, (C59_partial_exact (w := .w32) 10 l hl).2]; rfl

/-- Whatever the files contain, a call adds at most `n` points. -/
theorem loop_size {α : Type} (pixel : Nat → Run α) (hot : Nat → Run (List α)) (n : Nat) :
    ∀ (s : St) (ib lb : List UInt8) (d d' : Dataset α) (s' : St),
    loop pixel hot n s ib lb d = some (d', s') →
      d.nPoints ≤ d'.nPoints ∧ d'.nPoints ≤ d.nPoints + n := by
  induction n with
  | zero => intro s ib lb d d' s' h; simp [loop] at h; simp [h.1]
  | succ n ih =>
    intro s ib lb d d' s' h
    rw [loop] at h
    simp only [Option.bind_eq_bind, Option.bind_eq_some_iff] at h
    obtain ⟨image, -, lab, -, target, -, h⟩ := h
    have hadd : ∀ q : IOType α × IOType α, (d.addPoint q).nPoints = d.nPoints + 1 := by
      intro q; simp [Dataset.addPoint, Dataset.nPoints]
    split at h
    · cases h; rw [hadd]; omega
    · have := ih _ _ _ _ _ _ h
      rw [hadd] at this
      omega

end Mnist
open Mnist

/-- C60. Whatever the files contain and in any arithmetic, a call returns at most as many points as
requested. -/
theorem C60_size {α P : Type} [CplxOps α P] (b : Nat) (s s' : St) (d : Dataset α)
    (h : asComplexBatch b s = some (d, s')) : d.nPoints ≤ b := by
  have := (loop_size _ _ _ _ _ _ _ _ _ h).2
  simpa [Dataset.new, Dataset.nPoints] using this

/-- C60. The same for the real reader. -/
theorem C60_size_real {P : Type} [RealOps P] (b : Nat) (s s' : St) (d : Dataset P)
    (h : asBatch b s = some (d, s')) : d.nPoints ≤ b := by
  have := (loop_size _ _ _ _ _ _ _ _ _ h).2
  simpa [Dataset.new, Dataset.nPoints] using this

/-- C60, the part that holds (complex reader). Any number of calls with any batch sizes deliver, in
order and without skipping or repeating, the first records of the files, each image with its label;
no call returns more points than requested, and exactly as many up to record 60000.
`sizes.foldl advance 0` is the number of records delivered; it must not exceed the number of
records in the files. (Missing: calls that run past the end, see `C60_refuted_short`,
`C60_refuted_end`.) -/
theorem C60_partial {w : Width} {hi hl : List UInt8} (h1 : hi.length = 16) (h2 : hl.length = 8)
    {recs : List Record} (hw : ∀ r ∈ recs, r.WF) (sizes : List Nat)
    (hs : sizes.foldl advance 0 ≤ recs.length) :
    ∃ ds s, calls (asComplexBatch (α := Cf w ℝ)) sizes (files hi hl recs) = some (ds, s)
      ∧ ds.flatMap Dataset.points = (recs.take (sizes.foldl advance 0)).map (Record.cpoint w)
      ∧ List.Forall₂ (fun d b => d.nPoints ≤ b) ds sizes
      ∧ (sizes.sum ≤ 60000 → ds.map Dataset.nPoints = sizes) :=
  history (fun b _ => cpixel b) (fun l hl => chot l hl) h1 h2 hw sizes hs

/-- C60, the part that holds (real reader). -/
theorem C60_partial_real {hi hl : List UInt8} (h1 : hi.length = 16) (h2 : hl.length = 8)
    {recs : List Record} (hw : ∀ r ∈ recs, r.WF) (sizes : List Nat)
    (hs : sizes.foldl advance 0 ≤ recs.length) :
    ∃ ds s, calls (asBatch (P := ℝ)) sizes (files hi hl recs) = some (ds, s)
      ∧ ds.flatMap Dataset.points = (recs.take (sizes.foldl advance 0)).map Record.rpoint
      ∧ List.Forall₂ (fun d b => d.nPoints ≤ b) ds sizes
      ∧ (sizes.sum ≤ 60000 → ds.map Dataset.nPoints = sizes) :=
  history (fun b _ => rpixel b) (fun l hl => rhot l hl) h1 h2 hw sizes hs

/-- C60. As long as no more records are requested than the files have (and at most 60000), the
calls deliver exactly the requested numbers of records, in order. -/
theorem C60_partial_within {w : Width} {hi hl : List UInt8} (h1 : hi.length = 16)
    (h2 : hl.length = 8) {recs : List Record} (hw : ∀ r ∈ recs, r.WF) (sizes : List Nat)
    (hs : sizes.sum ≤ recs.length) (hs' : sizes.sum ≤ 60000) :
    ∃ ds s, calls (asComplexBatch (α := Cf w ℝ)) sizes (files hi hl recs) = some (ds, s)
      ∧ ds.flatMap Dataset.points = (recs.take sizes.sum).map (Record.cpoint w)
      ∧ ds.map Dataset.nPoints = sizes := by
  have e : sizes.foldl advance 0 = sizes.sum := by
    rw [foldl_advance sizes 0 (by omega), Nat.zero_add]
  obtain ⟨ds, s, c1, c2, -, c4⟩ := C60_partial (w := w) h1 h2 hw sizes (by omega)
  exact ⟨ds, s, c1, by rw [c2, e], c4 hs'⟩

/-- C60. The training files (60000 records): calls of any sizes, the last of which reaches or
overshoots the end, deliver every record exactly once, in order. -/
theorem C60_partial_train {w : Width} {hi hl : List UInt8} (h1 : hi.length = 16)
    (h2 : hl.length = 8) {recs : List Record} (hw : ∀ r ∈ recs, r.WF)
    (hN : recs.length = 60000) (sizes : List Nat) (b : Nat) (hs : sizes.sum < 60000)
    (hb : 60000 ≤ sizes.sum + b) :
    ∃ ds s, calls (asComplexBatch (α := Cf w ℝ)) (sizes ++ [b]) (files hi hl recs) = some (ds, s)
      ∧ ds.flatMap Dataset.points = recs.map (Record.cpoint w) := by
  have e : (sizes ++ [b]).foldl advance 0 = 60000 := by
    rw [List.foldl_append, foldl_advance sizes 0 (by omega), Nat.zero_add]
    show advance _ _ = _
    rw [advance, if_pos ⟨hs, hb⟩]
  obtain ⟨ds, s, c1, c2, -, -⟩ := C60_partial (w := w) h1 h2 hw (sizes ++ [b]) (by omega)
  exact ⟨ds, s, c1, by rw [c2, e, ← hN, List.take_length]⟩

/-- C60 is false of files with fewer than 60000 records, such as the MNIST test files: a call for
more points than are left returns as many as requested, the missing ones being copies of the last
record. -/
theorem C60_refuted_short {w : Width} {hi hl : List UInt8} (h1 : hi.length = 16)
    (h2 : hl.length = 8) {recs : List Record} (hw : ∀ r ∈ recs, r.WF) (hN : recs.length < 60000)
    (b : Nat) (hb : recs.length < b) :
    ∃ d s, asComplexBatch (α := Cf w ℝ) b (files hi hl recs) = some (d, s)
      ∧ d.points = recs.map (Record.cpoint w)
        ++ List.replicate (b - recs.length) ((recs.getLastD blank).cpoint w)
      ∧ d.nPoints = b :=
  over (fun b _ => cpixel b) (fun l hl => chot l hl) h1 h2 hw hN b hb.le

/-- C60 is false of the training files too: after the last record every further call for at least
one point returns a black image labelled 0. -/
theorem C60_refuted_end {w : Width} {hi hl : List UInt8} (h1 : hi.length = 16)
    (h2 : hl.length = 8) {recs : List Record} (hw : ∀ r ∈ recs, r.WF) (hN : recs.length = 60000)
    (b : Nat) (hb : 0 < b) :
    ∃ d₁ d₂ s, calls (asComplexBatch (α := Cf w ℝ)) [60000, b] (files hi hl recs)
        = some ([d₁, d₂], s)
      ∧ d₁.points = recs.map (Record.cpoint w) ∧ d₂.points = [blank.cpoint w] :=
  past_end (fun b _ => cpixel b) (fun l hl => chot l hl) h1 h2 hw hN b hb

/-- The hypotheses are met by files of any length with any digits. -/
example (N : Nat) : ∃ recs : List Record, recs.length = N ∧ (∀ r ∈ recs, r.WF) :=
  ⟨List.replicate N ⟨List.replicate 784 255, 7⟩, by rw [List.length_replicate], fun r hr => by
    rw [(List.mem_replicate.mp hr).2]
    exact ⟨List.length_replicate, show (7 : UInt8).toNat < 10 by decide⟩⟩

example : [20, 15, 30].foldl advance 0 = 65 ∧ [59990, 20].foldl advance 0 = 60000 := by decide

end Renplex
