import Verif.Props.Network
import Verif.Props.Layer
/-!
# Which layers the network accepts as initialised
-/

namespace Renplex
variable {α : Type}

/-- C43. What `is_empty` says of the layers that the constructors return: a dense layer is refused exactly
if it has no units (whatever its number of inputs), a convolutional layer exactly if it has neither
filters nor input features, pooling and flatten layers never. -/
theorem C43_initialised [BasicOps α] [GenOps α] (n k : Nat) (func : ActFunc) (method : InitMethod) (seed seed' : Nat) :
    (∀ d : Dense α, Dense.init (.scalar n) k func method seed = some (.ok d, seed') →
        ((Layer.dense d).isEmpty = true ↔ k = 0))
      ∧ (∀ (ks : Nat × Nat) (c : Conv α), Conv.init (.matrix n) k ks func method seed = some (.ok c, seed') →
        ((Layer.conv c).isEmpty = true ↔ k = 0 ∧ n = 0))
      ∧ (∀ (block : Nat × Nat) (f : List α → Run α) (m : Mat α), (Layer.reduce (Reduce.init n block f m)).isEmpty = false)
      ∧ ∀ size : Nat × Nat, (Layer.flatten (Flatten.init size n) : Layer α).isEmpty = false := by
  refine ⟨fun d h => ?_, fun ks c h => ?_, fun _ _ _ => rfl, fun _ => rfl⟩
  · obtain ⟨l, ws, e, -, -, -, hs, -, hb, -⟩ := (C37_init _ _ _ _ _ _ _).mp h
    cases e
    simp only [Layer.isEmpty, Dense.isEmpty, hs, hb, List.length_replicate, Bool.or_eq_true, beq_iff_eq, Prod.mk.injEq]
    omega
  · obtain ⟨l, ms, e, -, -, -, -, hs, -⟩ := (C39_init _ _ _ _ _ _ _ _ _).mp h
    cases e
    simp only [Layer.isEmpty, Conv.isEmpty, hs, beq_iff_eq, Prod.mk.injEq]

/-- C43. So a convolutional layer without filters is accepted, as first layer and behind any layer of
matching kind, and a dense layer without units is not. -/
theorem C43_no_filters [BasicOps α] [GenOps α] (n : Nat) (hn : 0 < n) (func : ActFunc) (method : InitMethod) (seed seed' : Nat)
    (ks : Nat × Nat) (c : Conv α) (h : Conv.init (.matrix n) 0 ks func method seed = some (.ok c, seed')) :
    (NetOp.addInput (.conv c)).apply Net.new = some (.ok (), ⟨[.conv c]⟩)
      ∧ ∀ (net : Net α) (last : Layer α), net.layers.getLast? = some last → last.outputShape = .matrix n →
        (NetOp.add (.conv c)).apply net = some (.ok (), ⟨net.layers ++ [.conv c]⟩) := by
  have he : (Layer.conv c).isEmpty = false := by
    rw [← Bool.not_eq_true, (C43_initialised n 0 func method seed seed').2.1 ks c h]
    omega
  obtain ⟨l, ms, e, -, -, -, -, -, -, -, -, hi, -⟩ := (C39_init _ _ _ _ _ _ _ _ _).mp h
  cases e
  constructor
  · rw [C43_addInput, if_neg (by simp [Net.new]), if_neg (by simp [he])]
  · intro net last hl ho
    rw [C43_add_partial net _ last hl, if_neg (by simp [he]), if_pos]
    rw [ho]
    change _ = c.inputShape
    rw [← hi]
    rfl

/-- Such a layer without filters. -/
example : ∃ c : Conv (Cf .w32 ℝ), Conv.init (.matrix 1) 0 (3, 3) .none (.heInit 9) 7 = some (.ok c, 7) :=
  ⟨_, rfl⟩

end Renplex
