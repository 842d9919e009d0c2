import Verif.Props.Lax

/-!
# Cases that meet the assumptions of the theorems on typed decoding
-/

namespace Jzon.Props

open Spec Jzon

/-- The assumptions of all theorems on typed decoding hold for the sample program. -/
example : TypeLaws sampleEnv sampleCfg sampleSame := sampleLaws _ rfl rfl rfl

/- C24 -/
example : DecodesHere sampleEnv sampleCfg sampleSame (.int .w8) (.int 0) (bs! "12") (.int 12) := by
  refine ⟨0, ?_⟩
  simp only [DecodesN]
  exact .inr ⟨_, _, ⟨_, .pos _, .pos _ _ (by decide) (by decide), (by unfold Fits; decide)⟩, rfl, rfl⟩
example : Unmarshal sampleEnv sampleCfg samplePools sampleIt (bs! "12 3") (.int .w8) (.int 0) = .error .dataRemained := rfl
example : Unmarshal sampleEnv sampleCfg samplePools sampleIt (bs! "12 \n") (.int .w8) (.int 0) = .ok (.int 12) := rfl

/- C29 -/
example : Unmarshal sampleEnv sampleCfg samplePools sampleIt (bs! "[1, 2,3 ]") (.slice (.int .w8)) (.slice [.int 7]) =
    .ok (.slice [.int 1, .int 2, .int 3]) := rfl
example : Unmarshal sampleEnv sampleCfg samplePools sampleIt (bs! "[1, 2,[] ]") (.array 2 (.int .w8)) (.arr [.int 7, .int 8]) =
    .ok (.arr [.int 1, .int 2]) := rfl
example : Unmarshal sampleEnv sampleCfg samplePools sampleIt (bs! "[null]") (.array 2 (.int .w8)) (.arr [.int 7, .int 8]) =
    .ok (.arr [.int 7, .int 0]) := rfl

/- C30 -/
example : ∃ m, Unmarshal sampleEnv sampleCfg samplePools sampleIt (bs! "{\"a\":1,\"b\":2,\"a\":3}") (.map .str (.int .w8))
    (.map fun k => if k = .str (bs! "z") then some (.int 9) else none) = .ok (.map m) ∧
    m (.str (bs! "a")) = some (.int 3) ∧ m (.str (bs! "b")) = some (.int 2) ∧ m (.str (bs! "z")) = some (.int 9) ∧
    m (.str (bs! "c")) = none := ⟨_, rfl, rfl, rfl, rfl, rfl⟩

/- C39 -/
example : Keeps sampleEnv (.named 0) ∧ Nil sampleEnv (.named 1) .nilMap :=
  ⟨.inr (.inr (.inr (.inr (.inr (.inr (.inr (.inr (.inl ⟨_, .named 0 _ rfl⟩)))))))), .map _ _ _ (.named 1 _ rfl)⟩
example : Unmarshal sampleEnv sampleCfg samplePools sampleIt (bs! " null") (.named 3) (.struct [.bool true]) =
    .ok (.struct [.bool true]) := rfl
example : Unmarshal sampleEnv sampleCfg samplePools sampleIt (bs! "5") (.ptr (.ptr (.int .w8))) .nilPtr =
    .ok (.ptr (.ptr (.int 5))) := rfl

end Jzon.Props
