import Verif.Props.NetworkEval
/-!
# C82: the shapes a network reports
-/

namespace Renplex

variable {α P : Type}

/-- C82. A network without layers reports `MissingInput` for both shapes, any other network the input
shape of its first and the output shape of its last layer. -/
theorem C82_ends (n : Net α) :
    (n.layers = [] → n.inputShape = .error .missingInput ∧ n.outputShape = .error .missingInput)
      ∧ (∀ l, n.layers.head? = some l → n.inputShape = .ok l.inputShape)
      ∧ ∀ l, n.layers.getLast? = some l → n.outputShape = .ok l.outputShape := by
  obtain ⟨ls⟩ := n
  refine ⟨?_, ?_, ?_⟩
  · rintro rfl
    exact ⟨rfl, rfl⟩
  · intro l hl
    cases ls with
    | nil => cases hl
    | cons a ls => cases hl; rfl
  · intro l hl
    simp only at hl
    simp [Net.outputShape, hl]

/-- C82. An accepted `add_input` sets both shapes. -/
theorem C82_addInput {n n' : Net α} {l : Layer α} (h : (NetOp.addInput l).apply n = some (.ok (), n')) :
    n.inputShape = .error .missingInput ∧ n'.inputShape = .ok l.inputShape
      ∧ n'.outputShape = .ok l.outputShape := by
  obtain ⟨ls⟩ := n
  rw [C43_addInput] at h
  split_ifs at h with h1 h2
  · cases Option.some.inj h
  · cases Option.some.inj h
  · obtain rfl : ls = [] := not_not.mp h1
    cases Option.some.inj h
    exact ⟨rfl, rfl, rfl⟩

/-- C82. An accepted `add` takes a layer whose input shape was the reported output shape, and its output
shape is the new one; the reported input shape stays. -/
theorem C82_add {n n' : Net α} {l : Layer α} (h : (NetOp.add l).apply n = some (.ok (), n')) :
    n.outputShape = .ok l.inputShape ∧ n'.outputShape = .ok l.outputShape
      ∧ n'.inputShape = n.inputShape := by
  cases hl : n.layers.getLast? with
  | none =>
    have e : (NetOp.add l).apply n = some (.error .missingInitialization, n) ∨ (NetOp.add l).apply n = none := by
      simp only [NetOp.apply, Net.add, hl]
      by_cases he : l.isEmpty = true
      · exact .inl (by rw [if_pos he])
      · exact .inr (by rw [if_neg he]; rfl)
    rcases e with e | e <;> rw [e] at h <;> cases h
  | some last =>
    rw [C43_add_partial n l last hl] at h
    split_ifs at h with h1 h2
    · cases Option.some.inj h
    · cases Option.some.inj h
      refine ⟨by rw [(C82_ends n).2.2 last hl, h2], (C82_ends _).2.2 l (by simp), ?_⟩
      obtain ⟨ls⟩ := n
      cases ls with
      | nil => cases hl
      | cons a ls => rfl
    · cases Option.some.inj h

/-- C82. No further call changes the reported input shape. -/
theorem C82_calls {n n' : Net α} (hn : n.layers ≠ []) (ops : List (NetOp α)) (h : n.calls ops = some n') :
    n'.inputShape = n.inputShape := by
  obtain ⟨m, h1, -, h2⟩ := C43_no_panic_partial n hn ops
  obtain rfl := Option.some.inj (h1.symm.trans h)
  obtain ⟨ls⟩ := n
  obtain ⟨ls'⟩ := m
  obtain ⟨t, rfl⟩ : ls <+: ls' := h2
  cases ls with
  | nil => exact absurd rfl hn
  | cons a ls => rfl

/-- C82. Training changes neither. -/
theorem C82_training [CplxOps α P] {n n' : Net α} {steps : List (TrainStep α)} (hw : ∀ l ∈ n.layers, l.WF)
    (h : n.train steps = some n') : n'.inputShape = n.inputShape ∧ n'.outputShape = n.outputShape := by
  have h1 := (C47_training n n' steps hw h).2.2
  obtain ⟨ls⟩ := n
  obtain ⟨ls'⟩ := n'
  simp only at h1
  constructor
  · cases h1 with
    | nil => rfl
    | cons e _ => exact congrArg Except.ok e.2.1
  · have h2 := List.rel_reverse h1
    unfold Net.outputShape
    rw [← List.head?_reverse, ← List.head?_reverse]
    simp only
    revert h2
    generalize ls.reverse = a
    generalize ls'.reverse = b
    intro h2
    cases h2 with
    | nil => rfl
    | cons e _ => exact congrArg Except.ok e.2.2.1

/-- A network that was built, and trained. -/
example : exNet.inputShape = .ok (.scalar 2) ∧ exNet.outputShape = .ok (.scalar 1) := by
  exact ⟨rfl, rfl⟩

end Renplex
