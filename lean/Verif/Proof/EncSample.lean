import Verif.Spec.EncSample
import Verif.Proof.Encodable

/-!
# The sample program meets the assumptions
-/

set_option linter.unusedSimpArgs false

namespace Jzon

open Spec

theorem digits_five : Digits [0x35] := ⟨by decide, by decide⟩

theorem zeroArg_laws : FloatLaws zeroArg false false where
  posSmall h := by cases h
  posBig h := by cases h
  negSmall h := by cases h
  negBig h := by cases h
  fixed := ⟨[], [0x30], [], .inl rfl, .zero, .none, rfl⟩
  exponent := ⟨[], [], [], 0x30, 0x2B, 0x30, 0x30, .inl rfl, by decide, .none, .inl rfl, by decide, by decide, by decide, by decide, rfl⟩

theorem threeHalves_laws : FloatLaws threeHalves false false where
  posSmall _ _ := rfl
  posBig _ _ := rfl
  negSmall _ h := absurd rfl h
  negBig _ h := absurd rfl h
  fixed := ⟨[], [0x31], [0x2E, 0x35], .inl rfl, .pos _ _ (by decide) (by decide), .some _ digits_five, rfl⟩
  exponent := ⟨[], [0x2E, 0x35], [], 0x31, 0x2B, 0x30, 0x30, .inl rfl, by decide, .some _ digits_five, .inl rfl, by decide, by decide,
    by decide, by decide, rfl⟩

theorem sampleFloat_laws (f : List Byte) (h : (sampleFloat f).isNaN = false) : ∃ small big, FloatLaws (sampleFloat f) small big := by
  unfold sampleFloat at h ⊢
  split
  · exact ⟨_, _, zeroArg_laws⟩
  · rename_i h1
    rw [if_neg h1] at h
    split
    · exact ⟨_, _, threeHalves_laws⟩
    · rename_i h2
      rw [if_neg h2] at h
      cases h

theorem nodup_same {K : Type} (l : List K) : ∃ l' : List K, l'.Nodup ∧ ∀ k, k ∈ l' ↔ k ∈ l := by
  induction l with
  | nil => exact ⟨[], .nil, fun _ => .rfl⟩
  | cons x l ih =>
    obtain ⟨l', h1, h2⟩ := ih
    by_cases h : x ∈ l'
    · refine ⟨l', h1, fun k => ?_⟩
      rw [h2, List.mem_cons]
      constructor
      · exact .inr
      · rintro (rfl | h')
        · exact (h2 _).mp h
        · exact h'
    · refine ⟨x :: l', List.nodup_cons.mpr ⟨h, h1⟩, fun k => ?_⟩
      rw [List.mem_cons, List.mem_cons, h2]

theorem nodup_keys {K V : Type} (m : K → Option V) (h : FiniteMap m) : ∃ keys : List K, keys.Nodup ∧ ∀ k, k ∈ keys ↔ (m k).isSome := by
  obtain ⟨keys, hk⟩ := h
  obtain ⟨l, h1, h2⟩ := nodup_same (keys.filter fun k => (m k).isSome)
  refine ⟨l, h1, fun k => ?_⟩
  rw [h2, List.mem_filter]
  exact ⟨fun h => h.2, fun h => ⟨hk k h, h⟩⟩

theorem sampleEntries_spec {F : Type} (m : Key → Option (Val F)) (keys : List Key) (h : sampleEntries m = some keys) :
    keys.Nodup ∧ ∀ k, k ∈ keys ↔ (m k).isSome := by
  unfold sampleEntries at h
  split at h
  · rename_i h'
    cases h
    exact h'.choose_spec
  · cases h

theorem sampleEntries_finite {F : Type} (m : Key → Option (Val F)) (h : FiniteMap m) : sampleEntries m ≠ none := by
  unfold sampleEntries
  rw [dif_pos (nodup_keys m h)]
  exact fun h => by cases h

theorem sampleEnc_laws : EncLaws sampleEnc where
  entries := sampleEntries_spec
  finite := sampleEntries_finite
  shuffle _ _ := .refl _
  base64 l c hc := by
    obtain ⟨_, _, rfl⟩ := List.mem_map.mp hc
    decide
  paths i f hf := by
    match i with
    | 0 =>
      simp only [sampleEnc, List.mem_cons, List.not_mem_nil, or_false] at hf
      rcases hf with rfl | rfl | rfl <;> exact ⟨_, _, rfl⟩
    | 1 => cases hf
    | 2 => cases hf
    | _ + 3 =>
      simp only [sampleEnc, List.mem_cons, List.not_mem_nil, or_false] at hf
      subst hf
      exact ⟨_, _, rfl⟩
  float32 f _ h := sampleFloat_laws f h
  float64 f _ h := sampleFloat_laws f h

end Jzon
