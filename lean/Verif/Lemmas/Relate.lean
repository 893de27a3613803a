import Verif.Spec.Relate
import Verif.Lemmas.List
/-!
# Relational versions of lists, options and matrices
-/

namespace Renplex
namespace Relate

open Filter

variable {ι : Type} {l : Filter ι}
variable {A A' A'' : ι → Type} {B B' B'' : Type}
variable {S : (∀ k, A k) → B → Prop} {T : (∀ k, A' k) → B' → Prop} {U : (∀ k, A'' k) → B'' → Prop}

/-! ## Options and results -/

theorem RO.pure {a : ∀ k, A k} {b : B} (h : S a b) : RO l S (fun k => some (a k)) (some b) := by
  intro b' e; cases e; exact ⟨a, h, .of_forall fun _ => rfl⟩

theorem RO.none {f : ∀ k, Run (A k)} : RO l S f none := by intro b e; cases e

theorem RO.of_some {f : ∀ k, Run (A k)} {o : Run B} (h : (∃ b, o = some b) → RO l S f o) :
    RO l S f o := fun b e => h ⟨b, e⟩ b e

theorem RO.congr {f g : ∀ k, Run (A k)} {o : Run B} (h : ∀ᶠ k in l, f k = g k) (hg : RO l S g o) :
    RO l S f o := by
  intro b e
  obtain ⟨a, h1, h2⟩ := hg b e
  exact ⟨a, h1, by filter_upwards [h, h2] with k h h2 using h.trans h2⟩

theorem RO.bind {f : ∀ k, Run (A k)} {o : Run B} {g : ∀ k, A k → Run (A' k)} {h : B → Run B'}
    (hf : RO l S f o) (hg : ∀ a b, o = some b → S a b → RO l T (fun k => g k (a k)) (h b)) :
    RO l T (fun k => (f k) >>= (g k)) (o >>= h) := by
  intro b e
  obtain ⟨c, e1, e2⟩ := Option.bind_eq_some_iff.mp e
  obtain ⟨a, h1, h2⟩ := hf c e1
  obtain ⟨a', h3, h4⟩ := hg a c e1 h1 b e2
  refine ⟨a', h3, ?_⟩
  filter_upwards [h2, h4] with k h2 h4
  rw [h2]; exact h4

theorem RO.unwrap {ε : Type} {f : ∀ k, Except ε (A k)} {o : Except ε B} (h : RE l S f o) :
    RO l S (fun k => unwrap (f k)) (unwrap o) := by
  intro b e
  cases o with
  | error x => cases e
  | ok c =>
    cases e
    obtain ⟨a, h1, h2⟩ := h.1 b rfl
    exact ⟨a, h1, h2.mono fun k e => by simp only [e, Renplex.unwrap]⟩

theorem RO.ite {p : ι → Prop} {q : Prop} [∀ k, Decidable (p k)] [Decidable q] {f g : ∀ k, Run (A k)}
    {o o' : Run B} (h : ∀ᶠ k in l, (p k ↔ q)) (h1 : q → RO l S f o) (h2 : ¬ q → RO l S g o') :
    RO l S (fun k => if p k then f k else g k) (if q then o else o') := by
  by_cases hq : q
  · rw [if_pos hq]
    exact (h1 hq).congr (h.mono fun k e => if_pos (e.mpr hq))
  · rw [if_neg hq]
    exact (h2 hq).congr (h.mono fun k e => if_neg (fun x => hq (e.mp x)))

theorem RE.ok {ε : Type} {a : ∀ k, A k} {b : B} (h : S a b) :
    RE l S (fun k => (.ok (a k) : Except ε (A k))) (.ok b) :=
  ⟨fun b' e => by cases e; exact ⟨a, h, .of_forall fun _ => rfl⟩, fun e h => by cases h⟩

theorem RE.error {ε : Type} (e : ε) : RE l S (fun k => (.error e : Except ε (A k))) (.error e) :=
  ⟨fun b' e => (by cases e), fun x h => (by cases h; exact .of_forall fun _ => rfl)⟩

theorem RE.congr {ε : Type} {f g : ∀ k, Except ε (A k)} {o : Except ε B} (h : ∀ᶠ k in l, f k = g k)
    (hg : RE l S g o) : RE l S f o := by
  constructor
  · intro b e
    obtain ⟨a, h1, h2⟩ := hg.1 b e
    exact ⟨a, h1, by filter_upwards [h, h2] with k h h2 using h.trans h2⟩
  · intro x e
    filter_upwards [h, hg.2 x e] with k h h2 using h.trans h2

theorem RE.ite {ε : Type} {p : ι → Prop} {q : Prop} [∀ k, Decidable (p k)] [Decidable q]
    {f g : ∀ k, Except ε (A k)} {o o' : Except ε B} (h : ∀ᶠ k in l, (p k ↔ q)) (h1 : q → RE l S f o)
    (h2 : ¬ q → RE l S g o') :
    RE l S (fun k => if p k then f k else g k) (if q then o else o') := by
  by_cases hq : q
  · rw [if_pos hq]
    exact (h1 hq).congr (h.mono fun k e => if_pos (e.mpr hq))
  · rw [if_neg hq]
    exact (h2 hq).congr (h.mono fun k e => if_neg (fun x => hq (e.mp x)))

/-- A computation without numbers. -/
theorem RO.disc {D : Type} (o : Run D) : RO l (RD l) (fun _ => o) o :=
  fun b e => ⟨fun _ => b, .of_forall fun _ => rfl, .of_forall fun _ => e⟩

theorem RO.discBind {D : Type} {o : Run D} {g : ∀ k, D → Run (A k)} {h : D → Run B}
    (hg : ∀ d, o = some d → RO l S (fun k => g k d) (h d)) :
    RO l S (fun k => o >>= g k) (o >>= h) := by
  cases o with
  | none => exact RO.none
  | some d => exact hg d rfl

theorem RO.mono {S' : (∀ k, A k) → B → Prop} {f : ∀ k, Run (A k)} {o : Run B} (h : RO l S f o)
    (hs : ∀ a b, S a b → S' a b) : RO l S' f o := by
  intro b e
  obtain ⟨a, h1, h2⟩ := h b e
  exact ⟨a, hs _ _ h1, h2⟩

/-! ## Lists -/

theorem RL.of {as : List (∀ k, A k)} {bs : List B} (h : List.Forall₂ S as bs) :
    RL l S (fun k => as.map (· k)) bs := ⟨as, h, .of_forall fun _ => rfl⟩

theorem RL.congr {f g : ∀ k, List (A k)} {bs : List B} (h : ∀ᶠ k in l, f k = g k) (hg : RL l S g bs) :
    RL l S f bs := by
  obtain ⟨as, h1, h2⟩ := hg
  exact ⟨as, h1, by filter_upwards [h, h2] with k h h2 using h.trans h2⟩

theorem RL.nil : RL l S (fun _ => []) [] := RL.of .nil

theorem RL.cons {a : ∀ k, A k} {b : B} {f : ∀ k, List (A k)} {bs : List B} (h : S a b)
    (hf : RL l S f bs) : RL l S (fun k => a k :: f k) (b :: bs) := by
  obtain ⟨as, h1, h2⟩ := hf
  exact ⟨a :: as, .cons h h1, h2.mono fun k e => by simp only [e, List.map_cons]⟩

theorem RL.single {a : ∀ k, A k} {b : B} (h : S a b) : RL l S (fun k => [a k]) [b] := RL.cons h RL.nil

theorem RL.len {f : ∀ k, List (A k)} {bs : List B} (h : RL l S f bs) :
    ∀ᶠ k in l, (f k).length = bs.length := by
  obtain ⟨as, h1, h2⟩ := h
  exact h2.mono fun k e => by rw [e, List.length_map]; exact h1.length_eq

theorem RL.elim {f : ∀ k, List (A k)} {bs : List B} (h : RL l S f bs) {F : ∀ k, List (A k) → Run (A' k)}
    {o : Run B'} (hF : ∀ as : List (∀ k, A k), List.Forall₂ S as bs →
      RO l T (fun k => F k (as.map (· k))) o) : RO l T (fun k => F k (f k)) o := by
  obtain ⟨as, h1, h2⟩ := h
  exact (hF as h1).congr (h2.mono fun k e => by simp only [e])

/-- A list function that commutes with maps and preserves pointwise relations. -/
theorem RL.nat {f : ∀ k, List (A k)} {bs : List B} (h : RL l S f bs) {F : ∀ X : Type, List X → List X}
    (hF : ∀ (X Y : Type) (g : X → Y) v, F Y (v.map g) = (F X v).map g)
    (hR : ∀ as, List.Forall₂ S as bs → List.Forall₂ S (F _ as) (F _ bs)) :
    RL l S (fun k => F _ (f k)) (F _ bs) := by
  obtain ⟨as, h1, h2⟩ := h
  exact ⟨F _ as, hR _ h1, h2.mono fun k e => by simp only [e, hF]⟩

theorem RL.take {f : ∀ k, List (A k)} {bs : List B} (h : RL l S f bs) (n : Nat) :
    RL l S (fun k => (f k).take n) (bs.take n) :=
  h.nat (F := fun _ v => v.take n) (fun _ _ _ _ => List.map_take.symm)
    fun _ h => List.forall₂_take n h

theorem RL.drop {f : ∀ k, List (A k)} {bs : List B} (h : RL l S f bs) (n : Nat) :
    RL l S (fun k => (f k).drop n) (bs.drop n) :=
  h.nat (F := fun _ v => v.drop n) (fun _ _ _ _ => List.map_drop.symm)
    fun _ h => List.forall₂_drop n h

theorem RL.tail {f : ∀ k, List (A k)} {bs : List B} (h : RL l S f bs) :
    RL l S (fun k => (f k).tail) bs.tail := by
  simp only [← List.drop_one]; exact h.drop 1

theorem RL.reverse {f : ∀ k, List (A k)} {bs : List B} (h : RL l S f bs) :
    RL l S (fun k => (f k).reverse) bs.reverse :=
  h.nat (F := fun _ v => v.reverse) (fun _ _ _ _ => List.map_reverse.symm)
    fun _ h => List.rel_reverse h

theorem RL.append {f g : ∀ k, List (A k)} {bs cs : List B} (h : RL l S f bs) (h' : RL l S g cs) :
    RL l S (fun k => f k ++ g k) (bs ++ cs) := by
  obtain ⟨as, h1, h2⟩ := h
  obtain ⟨as', h3, h4⟩ := h'
  exact ⟨as ++ as', List.rel_append h1 h3, by
    filter_upwards [h2, h4] with k e e'; rw [e, e', List.map_append]⟩

theorem RL.replicate {a : ∀ k, A k} {b : B} (h : S a b) (n : Nat) :
    RL l S (fun k => List.replicate n (a k)) (List.replicate n b) := by
  induction n with
  | zero => exact RL.nil
  | succ n ih => simp only [List.replicate_succ]; exact RL.cons h ih

theorem RL.map {f : ∀ k, List (A k)} {bs : List B} (h : RL l S f bs) {g : ∀ k, A k → A' k} {g' : B → B'}
    (hg : ∀ a b, b ∈ bs → S a b → T (fun k => g k (a k)) (g' b)) :
    RL l T (fun k => (f k).map (g k)) (bs.map g') := by
  obtain ⟨as, h1, h2⟩ := h
  refine RL.congr (h2.mono fun k e => by rw [e]) ?_
  clear h2
  induction h1 with
  | nil => exact RL.nil
  | cons h _ ih => exact RL.cons (hg _ _ (by simp) h) (ih fun a b hb => hg a b (by simp [hb]))

theorem RL.zip {f : ∀ k, List (A k)} {bs : List B} (h : RL l S f bs) {g : ∀ k, List (A' k)}
    {cs : List B'} (h' : RL l T g cs) :
    RL l (RP S T) (fun k => (f k).zip (g k)) (bs.zip cs) := by
  obtain ⟨as, h1, h2⟩ := h
  obtain ⟨as', h3, h4⟩ := h'
  refine RL.congr (by filter_upwards [h2, h4] with k e e'; rw [e, e']) ?_
  clear h2 h4
  induction h1 generalizing as' cs with
  | nil => simp only [List.map_nil, List.zip_nil_left]; exact RL.nil
  | cons h _ ih =>
    cases h3 with
    | nil => simp only [List.map_nil, List.zip_nil_right]; exact RL.nil
    | cons h' h3 => simp only [List.map_cons, List.zip_cons_cons]; exact RL.cons ⟨h, h'⟩ (ih _ h3)

theorem RL.flatten {f : ∀ k, List (List (A k))} {bs : List (List B)} (h : RL l (RL l S) f bs) :
    RL l S (fun k => (f k).flatten) bs.flatten := by
  obtain ⟨as, h1, h2⟩ := h
  refine RL.congr (h2.mono fun k e => by rw [e]) ?_
  clear h2
  induction h1 with
  | nil => exact RL.nil
  | cons h _ ih => simp only [List.map_cons, List.flatten_cons]; exact h.append ih

theorem RL.flatMap {f : ∀ k, List (A k)} {bs : List B} (h : RL l S f bs) {g : ∀ k, A k → List (A' k)}
    {g' : B → List B'} (hg : ∀ a b, b ∈ bs → S a b → RL l T (fun k => g k (a k)) (g' b)) :
    RL l T (fun k => (f k).flatMap (g k)) (bs.flatMap g') := by
  simp only [List.flatMap_def]; exact (h.map hg).flatten

theorem RL.mapM {f : ∀ k, List (A k)} {bs : List B} (h : RL l S f bs) {g : ∀ k, A k → Run (A' k)}
    {g' : B → Run B'} (hg : ∀ a b, b ∈ bs → S a b → RO l T (fun k => g k (a k)) (g' b)) :
    RO l (RL l T) (fun k => (f k).mapM (g k)) (bs.mapM g') := by
  refine h.elim fun as h1 => ?_
  clear h
  induction h1 with
  | nil => exact RO.pure RL.nil
  | cons h _ ih =>
    simp only [List.map_cons, List.mapM_cons]
    refine (hg _ _ (by simp) h).bind fun a b _ hab => ?_
    refine (ih fun a b hb => hg a b (by simp [hb])).bind fun as bs _ hs => ?_
    exact RO.pure (RL.cons hab hs)

theorem RL.foldl {f : ∀ k, List (A k)} {bs : List B} (h : RL l S f bs) {g : ∀ k, A' k → A k → A' k}
    {g' : B' → B → B'} {a : ∀ k, A' k} {b : B'} (ha : T a b)
    (hg : ∀ a b c d, T a b → S c d → T (fun k => g k (a k) (c k)) (g' b d))
    (hT : ∀ f g b, (∀ᶠ k in l, f k = g k) → T g b → T f b) :
    T (fun k => (f k).foldl (g k) (a k)) (bs.foldl g' b) := by
  obtain ⟨as, h1, h2⟩ := h
  refine hT _ (fun k => (as.map (· k)).foldl (g k) (a k)) _ (h2.mono fun k e => by rw [e]) ?_
  clear h2
  induction h1 generalizing a b with
  | nil => exact ha
  | cons h _ ih => simp only [List.map_cons, List.foldl_cons]; exact ih (hg _ _ _ _ ha h)

theorem RL.foldlM {f : ∀ k, List (A k)} {bs : List B} (h : RL l S f bs)
    {g : ∀ k, A' k → A k → Run (A' k)}
    {g' : B' → B → Run B'} {a : ∀ k, A' k} {b : B'} (ha : T a b)
    (hg : ∀ a b c d, d ∈ bs → T a b → S c d → RO l T (fun k => g k (a k) (c k)) (g' b d)) :
    RO l T (fun k => (f k).foldlM (g k) (a k)) (bs.foldlM g' b) := by
  refine h.elim (F := fun k v => v.foldlM (g k) (a k)) fun as h1 => ?_
  clear h
  induction h1 generalizing a b with
  | nil => exact RO.pure ha
  | cons h _ ih =>
    simp only [List.map_cons, List.foldlM_cons]
    exact (hg _ _ _ _ (by simp) ha h).bind fun a b _ hab =>
      ih hab fun a b c d hd => hg a b c d (by simp [hd])

theorem RL.getElem? {f : ∀ k, List (A k)} {bs : List B} (h : RL l S f bs) (i : Nat) :
    RO l S (fun k => (f k)[i]?) bs[i]? := by
  refine h.elim (F := fun k v => v[i]?) fun as h1 => ?_
  clear h
  induction h1 generalizing i with
  | nil => exact RO.none
  | cons h _ ih =>
    cases i with
    | zero => simpa using RO.pure h
    | succ i => simpa using ih i

theorem RL.head? {f : ∀ k, List (A k)} {bs : List B} (h : RL l S f bs) :
    RO l S (fun k => (f k).head?) bs.head? := by
  simp only [List.head?_eq_getElem?]; exact h.getElem? 0

theorem RL.set {f : ∀ k, List (A k)} {bs : List B} (h : RL l S f bs) (i : Nat) {a : ∀ k, A k} {b : B}
    (ha : S a b) : RL l S (fun k => (f k).set i (a k)) (bs.set i b) := by
  obtain ⟨as, h1, h2⟩ := h
  refine RL.congr (h2.mono fun k e => by rw [e]) ?_
  clear h2
  induction h1 generalizing i with
  | nil => exact RL.nil
  | cons h h' ih =>
    cases i with
    | zero => exact RL.cons ha (RL.of h')
    | succ i => exact RL.cons h (ih i)

theorem RL.zipUpd {f : ∀ k, List (A k)} {bs : List B} (h : RL l S f bs) {g : ∀ k, List (A' k)}
    {cs : List B'} (h' : RL l T g cs) {u : ∀ k, A k → A' k → A k} {u' : B → B' → B}
    (hu : ∀ a b a' b', S a b → T a' b' → S (fun k => u k (a k) (a' k)) (u' b b')) :
    RL l S (fun k => zipUpd (u k) (f k) (g k)) (zipUpd u' bs cs) := by
  obtain ⟨as, h1, h2⟩ := h
  obtain ⟨as', h3, h4⟩ := h'
  refine RL.congr (by filter_upwards [h2, h4] with k e e'; rw [e, e']) ?_
  clear h2 h4
  induction h1 generalizing as' cs with
  | nil => cases h3 <;> exact RL.nil
  | cons h ht ih =>
    cases h3 with
    | nil => simp only [List.map_nil, Renplex.zipUpd]; exact RL.of (.cons h ht)
    | cons h' h3 => simp only [List.map_cons, Renplex.zipUpd]; exact RL.cons (hu _ _ _ _ h h') (ih _ h3)

theorem RL.slice {f : ∀ k, List (A k)} {bs : List B} (h : RL l S f bs) (a b : Nat) :
    RO l (RL l S) (fun k => slice (f k) a b) (slice bs a b) := by
  unfold Renplex.slice
  exact RO.ite (h.len.mono fun k e => by rw [e]) (fun _ => RO.pure ((h.drop a).take _))
    fun _ => RO.none

theorem RL.drainFront {f : ∀ k, List (A k)} {bs : List B} (h : RL l S f bs) (n : Nat) :
    RO l (RP (RL l S) (RL l S)) (fun k => drainFront n (f k)) (drainFront n bs) := by
  unfold Renplex.drainFront
  exact RO.ite (h.len.mono fun k e => by rw [e]) (fun _ => RO.pure ⟨h.take _, h.drop _⟩)
    fun _ => RO.none

theorem chunksAux_rel {f : ∀ k, List (A k)} {bs : List B} (h : RL l S f bs) (n fuel : Nat) :
    RL l (RL l S) (fun k => chunksAux n fuel (f k)) (chunksAux n fuel bs) := by
  induction fuel generalizing f bs with
  | zero => exact RL.nil
  | succ fuel ih =>
    obtain ⟨as, h1, h2⟩ := h
    refine RL.congr (h2.mono fun k e => by rw [e]) ?_
    clear h2
    cases h1 with
    | nil => exact RL.nil
    | cons h h1 =>
      simp only [List.map_cons, chunksAux]
      exact RL.cons ((RL.cons h (RL.of h1)).take n) (ih ((RL.cons h (RL.of h1)).drop n))

theorem RL.chunks {f : ∀ k, List (A k)} {bs : List B} (h : RL l S f bs) (n : Nat) :
    RO l (RL l (RL l S)) (fun k => chunks n (f k)) (chunks n bs) := by
  unfold Renplex.chunks
  refine RO.ite (.of_forall fun _ => Iff.rfl) (fun _ => RO.none) fun _ => RO.pure ?_
  unfold chunksPos
  exact RL.congr (h.len.mono fun k e => by rw [e]) (chunksAux_rel h n bs.length)

theorem RL.disc {D : Type} (v : List D) : RL l (RD l) (fun _ => v) v := by
  induction v with
  | nil => exact RL.nil
  | cons d v ih => exact RL.cons (.of_forall fun _ => rfl) ih

/-- A list computed elementwise from a list without numbers. -/
theorem RL.mapDisc {D : Type} (v : List D) {g : ∀ k, D → A k} {g' : D → B}
    (hg : ∀ d ∈ v, S (fun k => g k d) (g' d)) :
    RL l S (fun k => v.map (g k)) (v.map g') := by
  induction v with
  | nil => exact RL.nil
  | cons d v ih => exact RL.cons (hg d (by simp)) (ih fun d hd => hg d (by simp [hd]))

theorem RL.mapMDisc {D : Type} (v : List D) {g : ∀ k, D → Run (A k)} {g' : D → Run B}
    (hg : ∀ d ∈ v, RO l S (fun k => g k d) (g' d)) :
    RO l (RL l S) (fun k => v.mapM (g k)) (v.mapM g') := by
  induction v with
  | nil => exact RO.pure RL.nil
  | cons d v ih =>
    simp only [List.mapM_cons]
    refine (hg d (by simp)).bind fun a b _ hab => ?_
    refine (ih fun d hd => hg d (by simp [hd])).bind fun as bs _ hs => ?_
    exact RO.pure (RL.cons hab hs)

theorem RL.windows {f : ∀ k, List (A k)} {bs : List B} (h : RL l S f bs) (n : Nat) :
    RO l (RL l (RL l S)) (fun k => windows n (f k)) (windows n bs) := by
  unfold Renplex.windows
  refine RO.ite (.of_forall fun _ => Iff.rfl) (fun _ => RO.none) fun _ => RO.pure ?_
  refine RL.congr (g := fun k => (List.range (bs.length + 1 - n)).map fun i => ((f k).drop i).take n)
    (h.len.mono fun k e => by rw [e]) ?_
  exact RL.mapDisc _ fun i _ => (h.drop i).take n

theorem RL.reduce {f : ∀ k, List (A k)} {bs : List B} (h : RL l S f bs) {g : ∀ k, A k → A k → A k}
    {g' : B → B → B} (hg : ∀ a b c d, S a b → S c d → S (fun k => g k (a k) (c k)) (g' b d)) :
    RO l S (fun k => reduce (g k) (f k)) (reduce g' bs) := by
  refine h.elim (F := fun k v => Renplex.reduce (g k) v) fun as h1 => ?_
  clear h
  cases h1 with
  | nil => exact RO.none
  | cons h h1 =>
    simp only [List.map_cons, Renplex.reduce]
    clear * - h h1 hg
    rename_i a b as bs
    suffices hs : ∀ (a : ∀ k, A k) (b : B), S a b →
        S (fun k => (as.map (· k)).foldl (g k) (a k)) (bs.foldl g' b) from RO.pure (hs _ _ h)
    clear h
    induction h1 with
    | nil => exact fun _ _ h => h
    | cons h' _ ih => exact fun a b h => ih _ _ (hg _ _ _ _ h h')

end Relate
end Renplex
