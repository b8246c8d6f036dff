import Verif.Model.Wire
import Mathlib.Tactic.Common
/-
C16: sender and receiver agree on the wire format.
-/
namespace Specula

/-- Once an output has a value it keeps having one. -/
def StaysSet {β : Type} : List (WObj β) → Prop
  | [] => True
  | o :: os => (o.value ≠ none → ∀ x ∈ os, x.value ≠ none) ∧ StaysSet os

theorem sendAll_recvAll {β : Type} (valid : Bool) (c : WObj β) (os : List (WObj β)) (hs : StaysSet (c :: os))
    (hv : valid = c.value.isSome) (rest : Transit β) :
    ∃ t, sendAll false valid os = some t ∧
      recvAll (some c) ⟨t.data ++ rest.data, t.times ++ rest.times⟩ os.length = some (os, rest) := by
  induction os generalizing valid c with
  | nil => exact ⟨⟨[], []⟩, rfl, rfl⟩
  | cons o os ih =>
    obtain ⟨hc, hs'⟩ := hs
    cases hcv : c.value with
    | none =>
      have hvf : valid = false := by rw [hv, hcv]; rfl
      obtain ⟨t, h1, h2⟩ := ih o.value.isSome o hs' rfl
      refine ⟨⟨.pickle o :: t.data, t.times⟩, ?_, ?_⟩
      · simp [sendAll, sendRemote, hvf, h1]
      · have htr : transferTo o c = o := by
          obtain ⟨v, g⟩ := o
          cases v with
          | none => simp [transferTo, hcv]
          | some b => rfl
        simp [recvAll, recvRemote, hcv, htr, h2]
    | some b0 =>
      have hvt : valid = true := by rw [hv, hcv]; rfl
      have ho : o.value ≠ none := hc (by simp [hcv]) o (by simp)
      obtain ⟨b, hb⟩ := Option.ne_none_iff_exists'.1 ho
      obtain ⟨t, h1, h2⟩ := ih true o hs' (by simp [hb])
      refine ⟨⟨.buffer b :: t.data, o.time :: t.times⟩, ?_, ?_⟩
      · simp [sendAll, sendRemote, hvt, h1, hb]
      · have hoe : (⟨some b, o.time⟩ : WObj β) = o := by rw [← hb]
        simp [recvAll, recvRemote, hcv, hoe, h2]

/-- **C16**: for every history of an output in which a value, once set, stays set, all sends succeed, every receive gets a
message in the format it waits for, the input holds after each receive exactly the value and generation time the output had at
the corresponding send, and no data or time message is left over. -/
theorem C16_wire_format {β : Type} (o : WObj β) (os : List (WObj β)) (h : StaysSet (o :: os)) :
    ∃ t, sendAll true false (o :: os) = some t ∧ recvAll none t (o :: os).length = some (o :: os, ⟨[], []⟩) := by
  obtain ⟨t, h1, h2⟩ := sendAll_recvAll o.value.isSome o os h rfl ⟨[], []⟩
  refine ⟨⟨.pickle o :: t.data, t.times⟩, ?_, ?_⟩
  · simp [sendAll, sendRemote, h1]
  · simp only [List.append_nil] at h2
    simp [recvAll, recvRemote, h2]

/-- An output that is unset before setup and in the first iteration, then has values. -/
example : StaysSet [(⟨none, -1⟩ : WObj Nat), ⟨none, -1⟩, ⟨some 3, 0⟩, ⟨some 3, 0⟩, ⟨some 5, 2⟩] := by
  simp [StaysSet]

/-- The condition is needed: if the value is unset again, the send fails. -/
theorem C16_unset_again_fails : sendAll true false [(⟨some 3, 0⟩ : WObj Nat), ⟨none, 1⟩] = none := rfl

end Specula
