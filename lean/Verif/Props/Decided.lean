import Verif.Proof.Decided
import Verif.Spec.Decided
import Verif.Props.Lazy
import Verif.Props.TypedSafe

/-!
# C64: a result that is settled is reported, without waiting for more
-/

set_option linter.unusedSimpArgs false

namespace Jzon.Props

open Spec Jzon

variable {F : Type} {Γ : TyEnv F} {cfg : DecCfg F} {same : Nat → Nat → Prop} {L : Nat → List Ty}

theorem cutOff_unread {it : It} {s : List RdRes} {n : Nat} (hh : it.head ≤ it.buf.length) (hs : ∀ r ∈ s, r.err = none) :
    Unread (cutOff it s n) (it.buf.drop it.head ++ readBytes s) (.io n) := by
  refine ⟨hh, readBytes s, ?_, rfl⟩
  have := delivers_append hs (.broken [] (.io n) [] [] .eof (by simp) .done)
  simpa [cutOff] using this

theorem settles_of_grows {α : Type} {p : Prog α} (hg : p.Grows p) (hp : Harmless p) : Settles p := by
  intro it s n hh hs hne later
  have ht : Twin (.io n) later (cutOff it s n) (goesOn it s later) := ⟨s, rfl, hs, rfl⟩
  rcases grows_twin hg (by simp) ht with h | h | ⟨h, s', _, hs', h2⟩
  · exact absurd h hne
  · exact absurd h (hp _ _ _ (cutOff_unread hh hs) (by simp) (by simp)).2.1
  · exact ⟨h, s', hs', by rw [h2]⟩

/-- C64 for `Skip`. -/
theorem C64_skip (pool : Stack) : Settles (Skip pool) := settles_of_grows (grows_Skip pool) (C08_skip pool)

/-- C64 for `SkipRaw`. -/
theorem C64_skipRaw (pool : Stack) : Settles (SkipRaw pool) := settles_of_grows (grows_SkipRaw pool) (C08_skipRaw pool)

/-- C64 for `Read`. -/
theorem C64_read {cfg : ReadCfg F} (hops : ∀ t e, cfg.ops.parse t = .error e → e ≠ .panic ∧ e ≠ .hang) (pool : Stack) :
    Settles (Read cfg pool) := settles_of_grows (grows_Read cfg pool) (C08_read hops pool)

/-- C64 for `ReadString`. -/
theorem C64_readString : Settles ReadString := settles_of_grows grows_ReadString C08_readString

/-- C64 for `ReadVal`. -/
theorem C64_readVal (hl : TypeLaws Γ cfg same) (hd : Declared Γ L) (hp : NoPanics Γ cfg) (pools : Pools) {T : Ty} {old : Val F}
    (hold : HasTy Γ L T old) : Settles (ReadVal Γ cfg pools T old) :=
  settles_of_grows (grows_ReadVal Γ cfg pools T old) (C08_readVal hl hd hp pools hold)

/-- C64 for `UnmarshalFromReader`. -/
theorem C64_unmarshal (hl : TypeLaws Γ cfg same) (hd : Declared Γ L) (hp : NoPanics Γ cfg) (pools : Pools) {T : Ty} {old : Val F}
    (hold : HasTy Γ L T old) : Settles (unmarshalProg Γ cfg pools T old) :=
  settles_of_grows (grows_unmarshalProg Γ cfg pools T old) (C08_unmarshal hl hd hp pools hold)

/-- An error that `UnmarshalFromReader` reports after the bytes `p`, other than that of the reader, is the one `Unmarshal` reports for every
text that begins with `p`: nothing that could have followed would have been accepted. -/
theorem C64_refused_for_good (hl : TypeLaws Γ cfg same) (hd : Declared Γ L) (hp : NoPanics Γ cfg) (pools : Pools) {T : Ty} {old : Val F}
    (hold : HasTy Γ L T old) (it it2 : It) {s : List RdRes} (hs : ∀ r ∈ s, r.err = none) {n : Nat} {e : Err} (he : e ≠ .io n)
    (h : UnmarshalFromReader Γ cfg pools it (s ++ [⟨[], some (.io n)⟩]) T old = .error e) (q : List Byte) :
    Unmarshal Γ cfg pools it2 (readBytes s ++ q) T old = .error e := by
  have h1 := C64_unmarshal hl hd hp pools hold (it.resetReader []) s n (by simp [It.resetReader]) hs (by
    intro hc
    exact he (by cases h.symm.trans hc; rfl)) [⟨q, some .eof⟩]
  rw [← C03_unmarshal pools it it2 (delivers_append hs (.last q [] (by simp)))]
  exact h1.1.trans h

/-- In particular no text that begins so is one that decodes. -/
theorem C64_no_continuation (hl : TypeLaws Γ cfg same) (hd : Declared Γ L) (hp : NoPanics Γ cfg) (pools : Pools) {T : Ty} {old : Val F}
    (hold : HasTy Γ L T old) (it : It) {s : List RdRes} (hs : ∀ r ∈ s, r.err = none) {n : Nat} {e : Err} (he : e ≠ .io n)
    (h : UnmarshalFromReader Γ cfg pools it (s ++ [⟨[], some (.io n)⟩]) T old = .error e) :
    ¬ ∃ q w t w' v, readBytes s ++ q = w ++ (t ++ w') ∧ Ws w ∧ Ws w' ∧ DecodesHere Γ cfg same T old t v := by
  rintro ⟨q, w, t, w', v, hq, hw, hw', hdec⟩
  have h1 := C64_refused_for_good hl hd hp pools hold it it hs he h q
  rw [hq] at h1
  have h2 := (unmarshal_iff hl pools it).mpr ⟨w, t, w', hw, hw', rfl, hdec⟩
  rw [h1] at h2
  cases h2

/-! ## Cases -/

/-- The bytes that have arrived end inside a string, behind a byte that is not allowed there: both readers give the error. -/
example (later : List RdRes) :
    ((Skip ⟨[], 0⟩).runM (cutOff (sampleIt.resetReader []) [⟨bs! "[\"a", none⟩, ⟨bs! "\n", none⟩] 7)).1 = 
      ((Skip ⟨[], 0⟩).runM (goesOn (sampleIt.resetReader []) [⟨bs! "[\"a", none⟩, ⟨bs! "\n", none⟩] later)).1 ∧
    ((Skip ⟨[], 0⟩).runM (cutOff (sampleIt.resetReader []) [⟨bs! "[\"a", none⟩, ⟨bs! "b", none⟩] 7)).1 = .error (.io 7) := by
  constructor <;> rfl

/-- A key without its colon is refused at the byte that stands in place of it. -/
example : UnmarshalFromReader sampleEnv sampleCfg samplePools sampleIt ([⟨bs! "{\"A\" 1", none⟩] ++ [⟨[], some (.io 7)⟩]) (.named 0)
    (sampleEnv.zeroNamed 0) ≠ .error (.io 7) ∧
    UnmarshalFromReader sampleEnv sampleCfg samplePools sampleIt ([⟨bs! "{\"A\" ", none⟩] ++ [⟨[], some (.io 7)⟩]) (.named 0)
    (sampleEnv.zeroNamed 0) = .error (.io 7) := by
  constructor
  · intro h; cases h
  · rfl

end Jzon.Props
