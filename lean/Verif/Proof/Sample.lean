import Verif.Spec.Sample
import Verif.Proof.TypedTop
import Verif.Proof.TypedSafe

/-!
# The sample program meets the assumptions of the theorems
-/

namespace Jzon

open Spec

/-- The case folding of the sample. -/
def sampleSame : Nat → Nat → Prop := fun a b => asciiMin a = asciiMin b

theorem sampleLaws (cfg : DecCfg (List Byte)) (h32 : cfg.ops32 = textOps) (h64 : cfg.ops64 = textOps) (hf : cfg.fold = asciiLib) :
    TypeLaws sampleEnv cfg sampleSame where
  law32 := h32 ▸ textOps_lawful
  law64 := h64 ▸ textOps_lawful
  fold := hf ▸ asciiLib_lawful
  names i fs h := by
    match i with
    | 0 => cases h; decide
    | 1 => cases h
    | 2 => cases h; decide
    | n + 3 => cases h; decide

theorem sampleDeclared : Declared sampleEnv sampleMembers where
  keys i := by
    refine ⟨?_, ?_⟩
    · rintro rfl; exact ⟨[], rfl⟩
    · intro s x h
      cases h
      rintro rfl
      exact ⟨[], rfl⟩
  fields i fs f h hf := by
    match i with
    | 0 =>
      cases h
      simp only [List.mem_cons, List.not_mem_nil, or_false] at hf
      rcases hf with rfl | rfl | rfl
      · exact .member 0 0 _ _ _ _ rfl rfl (.here _)
      · exact .member 0 1 _ _ _ _ rfl rfl (.here _)
      · exact .member 0 2 _ _ _ _ rfl rfl (.here _)
    | 1 => cases h
    | 2 => cases h; cases hf
    | n + 3 =>
      cases h
      simp only [List.mem_cons, List.not_mem_nil, or_false] at hf
      subst hf
      exact .member (n + 3) 0 _ _ _ _ rfl rfl (.here _)
  zero i := by
    match i with
    | 0 =>
      refine .struct 0 _ _ rfl rfl ?_
      intro k v T hv hT
      match k with
      | 0 => cases hv; cases hT; exact .int _ _ (by simp [Fits, Width.bits])
      | 1 => cases hv; cases hT; exact .nilSlice _ _ (.slice _)
      | 2 => cases hv; cases hT; exact .nilPtr _
      | k + 3 => cases hv
    | 1 => exact .nilMap _ _ _ (.named 1 _ rfl)
    | 2 => exact .struct 2 _ _ rfl rfl (fun k v T hv => by cases hv)
    | n + 3 =>
      refine .struct (n + 3) _ _ rfl rfl ?_
      intro k v T hv hT
      match k with
      | 0 => cases hv; cases hT; exact .bool _
      | k + 1 => cases hv

theorem sampleTame (uf : Watch) : Tame uf sampleEnv sampleCfg where
  ops32 t e h := by cases h
  ops64 t e h := by cases h
  base64 t e h := by cases h
  json i v t e h := by cases h
  text i v t e h := by cases h

end Jzon
