import Verif.Proof.Sample
import Verif.Props.Safe
import Verif.Props.Typed

/-!
# C08 and C42: typed decoding neither panics nor hangs, and keeps variables well typed

`HasTy Γ L T v`: `v` is a value of type `T`, `Declared Γ L`: the declarations of the types fit together.
-/

set_option linter.unusedSimpArgs false

namespace Jzon.Props

open Spec Jzon

variable {F : Type} {Γ : TyEnv F} {cfg : DecCfg F} {same : Nat → Nat → Prop} {L : Nat → List Ty}

theorem selectsHere_lt {cs : Bool} {fs : List Field} {key : List Byte} {j : Nat} (h : SelectsHere same cs (fs.map Field.name) key j) :
    j < fs.length := by
  rcases h.1 with h | ⟨_, _, ⟨n, h, _⟩, _⟩ <;>
  · have := (List.getElem?_eq_some_iff.mp h).1
    simpa using this

/-- The functions that are given to the library do not panic and do not loop. -/
def NoPanics (Γ : TyEnv F) (cfg : DecCfg F) : Prop :=
  (∀ t e, cfg.ops32.parse t = .error e → e ≠ .panic ∧ e ≠ .hang) ∧
  (∀ t e, cfg.ops64.parse t = .error e → e ≠ .panic ∧ e ≠ .hang) ∧
  (∀ t e, cfg.base64 t = .error e → e ≠ .panic ∧ e ≠ .hang) ∧
  (∀ i v t e, Γ.unmarshalJSON i v t = .error e → e ≠ .panic ∧ e ≠ .hang) ∧
  (∀ i v t e, Γ.unmarshalText i v t = .error e → e ≠ .panic ∧ e ≠ .hang)

theorem tame_of_noPanics (h : NoPanics Γ cfg) : Tame .safe Γ cfg where
  ops32 t e he := by have := h.1 t e he; simp [Bad, this]
  ops64 t e he := by have := h.2.1 t e he; simp [Bad, this]
  base64 t e he := by have := h.2.2.1 t e he; simp [Bad, this]
  json i v t e he := by have := h.2.2.2.1 i v t e he; simp [Bad, this]
  text i v t e he := by have := h.2.2.2.2 i v t e he; simp [Bad, this]

/-- C08: `ReadVal` on a variable that holds a value of its type. -/
theorem C08_readVal (hl : TypeLaws Γ cfg same) (hd : Declared Γ L) (hp : NoPanics Γ cfg) (pools : Pools) {T : Ty} {old : Val F}
    (hold : HasTy Γ L T old) : Harmless (ReadVal Γ cfg pools T old) := by
  refine harmless_of_safe fun env l henv _ => safe_bind safe_remaining fun n l1 h => ?_
  obtain ⟨rfl, rfl⟩ := runs_remaining.mp h
  exact safe_decoderOf henv hl.decLaws (tame_of_noPanics hp) hd closed_all (by simp)
    (fun i fs _ key j hj => selectsHere_lt hj) pools trivial hold (by omega)

/-- C08: `Unmarshal` and `UnmarshalFromReader` on a variable that holds a value of its type. -/
theorem C08_unmarshal (hl : TypeLaws Γ cfg same) (hd : Declared Γ L) (hp : NoPanics Γ cfg) (pools : Pools) {T : Ty} {old : Val F}
    (hold : HasTy Γ L T old) : Harmless (unmarshalProg Γ cfg pools T old) := by
  refine harmless_of_safe fun env l henv hle => safe_bind (safe_of_harmless (C08_readVal hl hd hp pools hold) henv hle) fun v l1 h => ?_
  refine safe_bind (safe_tokenEOF henv) fun o l2 h2 => ?_
  split
  · exact safe_fail (by simp [Bad])
  · exact safe_pure _

example : NoPanics sampleEnv sampleCfg ∧ HasTy sampleEnv sampleMembers (.named 0) (sampleEnv.zeroNamed 0) ∧
    Unmarshal sampleEnv sampleCfg samplePools sampleIt (bs! "{\"next\":{\"A\":5},\"Zz\":[],\"a\":2}") (.named 0) (sampleEnv.zeroNamed 0) =
      .ok (.struct [.int 2, .nilSlice, .ptr (.struct [.int 5, .nilSlice, .nilPtr])]) ∧
    Unmarshal sampleEnv sampleCfg samplePools sampleIt (bs! "{\"next\":{\"A\":") (.named 0) (sampleEnv.zeroNamed 0) = .error .eof :=
  ⟨⟨by simp [sampleCfg, textOps], by simp [sampleCfg, textOps], by simp [sampleCfg], by simp [sampleEnv], by simp [sampleEnv]⟩,
    sampleDeclared.zero 0, rfl, rfl⟩

/-- C42: a successful `Unmarshal` leaves a value of the type of the variable: integers in range, arrays of the right
length, map keys and members of structs of their types. -/
theorem C42_well_typed (hl : TypeLaws Γ cfg same) (hd : Declared Γ L) (pools : Pools) (it : It) {data : List Byte} {T : Ty} {old v : Val F}
    (hold : HasTy Γ L T old) (h : Unmarshal Γ cfg pools it data T old = .ok v) : HasTy Γ L T v := by
  obtain ⟨w, t, w2, _, _, _, n, h⟩ := (unmarshal_iff hl pools it).mp h
  exact decodesN_hasTy hd hold h

/-- C42 for readers. -/
theorem C42_well_typed_reader (hl : TypeLaws Γ cfg same) (hd : Declared Γ L) (pools : Pools) (it : It) {script : List RdRes}
    {data : List Byte} {T : Ty} {old v : Val F} (hs : Delivers script data .eof) (hold : HasTy Γ L T old)
    (h : UnmarshalFromReader Γ cfg pools it script T old = .ok v) : HasTy Γ L T v :=
  C42_well_typed hl hd pools it hold (by rw [← C03_unmarshal pools it it hs]; exact h)

example (v : Val (List Byte)) (h : HasTy sampleEnv sampleMembers (.int .w8) v) : v ≠ .int 128 := by
  rintro rfl
  cases h with
  | int _ _ h => simp [Fits, Width.bits] at h

end Jzon.Props
