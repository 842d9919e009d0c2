import Verif.Props.Struct
import Verif.Props.TypedSafe
import Verif.Spec.Described

/-!
# C28 and C42: the computed fields meet the conditions of typed decoding

`Described E ot Γ L`: the fields of the struct types of `Γ` are those that the library computes from their declarations in `E`.
-/

set_option linter.unusedSimpArgs false

namespace Jzon.Props

open Spec Jzon

variable {F : Type} {E : StructEnv} {ot : Bool} {Γ : TyEnv F} {L : Nat → List Ty}

/-- No struct has two fields with the same name. -/
theorem C28_described_names (h : Described E ot Γ L) {i : Nat} {fs : List Field} (hd : Γ.defn i = .struct fs) :
    (fs.map Field.name).Nodup := by
  obtain ⟨sfs, out, h1, _, h3, rfl⟩ := h.fields i fs hd
  rw [List.map_map]
  exact C28_names ⟨sfs, h1⟩ h3

theorem pathTy_append {T T' T'' : Ty} {p q : List PathStep} (h : PathTy Γ L T p T') (h' : PathTy Γ L T' q T'') :
    PathTy Γ L T (p ++ q) T'' := by
  induction h with
  | here => exact h'
  | member i k fs T T2 p hd hk hp ih => exact .member i k fs T _ _ hd hk (ih h')
  | deref e T T2 p hp ih => exact .deref e T _ _ (ih h')

theorem described_member (h : Described E ot Γ L) {t : Ty} {sfs : List SField} {k : Nat} {sf : SField} (ht : E.fieldsOf t = some sfs)
    (hk : sfs[k]? = some sf) : PathTy Γ L t [.member k] sf.ty := by
  obtain ⟨i, fs, rfl, hd⟩ := h.structs t sfs ht
  obtain ⟨sfs', _, h1, h2, _, _⟩ := h.fields i fs hd
  rw [ht] at h1
  simp at h1
  subst h1
  refine .member i k fs sf.ty _ _ hd ?_ (.here _)
  rw [h2, List.getElem?_map, hk]
  rfl

theorem isPtr_elem {t : Ty} (h : t.isPtr = true) : t = .ptr t.elem := by
  cases t <;> simp [Ty.isPtr] at h
  rfl

theorem not_isPtr_elem {t : Ty} (h : t.isPtr = false) : t.elem = t := by
  cases t <;> simp [Ty.isPtr] at h <;> rfl

theorem reach_pathTy (h : Described E ot Γ L) {S T : Ty} {index : List Nat} {path : List PathStep} (hr : Reach E ot S index path T) :
    PathTy Γ L S path T := by
  induction hr with
  | root => exact .here _
  | @step index p s fs i sf t hr hf hi he ih =>
    have h1 := described_member h hf hi
    have ht := ((embeds_iff E ot sf t).mp he).2.2
    refine pathTy_append ih ?_
    cases hp : sf.ty.isPtr with
    | true =>
      rw [isPtr_elem hp, ← ht] at h1
      have := pathTy_append h1 (.deref sf.exported t _ _ (.here _))
      simpa using this
    | false =>
      rw [not_isPtr_elem hp] at ht
      subst ht
      simpa using h1

/-- The path of a field leads to its type. -/
theorem C28_described_path (h : Described E ot Γ L) {i : Nat} {fs : List Field} {f : Field} (hd : Γ.defn i = .struct fs) (hf : f ∈ fs) :
    PathTy Γ L (.named i) f.path f.ty := by
  obtain ⟨sfs, out, h1, _, h3, rfl⟩ := h.fields i fs hd
  rw [List.mem_map] at hf
  obtain ⟨c, hc, rfl⟩ := hf
  obtain ⟨index, path, s, fs', j, sf, g1, g2, g3, g4, g5, g6⟩ := C28_candidates ⟨sfs, h1⟩ h3 hc
  show PathTy Γ L (.named i) c.path c.ty
  rw [g6, g4.ty]
  exact pathTy_append (reach_pathTy h g1) (described_member h g2 g3)

/-- C42 for struct types with computed fields: what remains to be assumed about the declarations is that the zero values of the
types are values of these types and that the methods for map keys give keys of their types. -/
theorem C42_described {cfg : DecCfg F} {same : Nat → Nat → Prop} (h : Described E ot Γ L) (h32 : Lawful cfg.ops32) (h64 : Lawful cfg.ops64)
    (hf : FoldLaws cfg.fold same) (hz : ∀ i, HasTy Γ L (.named i) (Γ.zeroNamed i))
    (hk : ∀ i, Γ.isKey i (keyValue (Γ.zeroOther i)) ∧ ∀ s x, Γ.unmarshalText i (Γ.zeroOther i) s = .ok x → Γ.isKey i (keyValue x)) (pools : Pools) (it : It) {data : List Byte} {T : Ty}
    {old v : Val F} (hold : HasTy Γ L T old) (hu : Unmarshal Γ cfg pools it data T old = .ok v) : HasTy Γ L T v :=
  C42_well_typed ⟨h32, h64, hf, fun _ _ hd => C28_described_names h hd⟩ ⟨fun _ _ _ hd hm => C28_described_path h hd hm, hz, hk⟩ pools it hold hu

/-- C08 for struct types with computed fields. -/
theorem C08_described {cfg : DecCfg F} {same : Nat → Nat → Prop} (h : Described E ot Γ L) (h32 : Lawful cfg.ops32) (h64 : Lawful cfg.ops64)
    (hf : FoldLaws cfg.fold same) (hz : ∀ i, HasTy Γ L (.named i) (Γ.zeroNamed i))
    (hk : ∀ i, Γ.isKey i (keyValue (Γ.zeroOther i)) ∧ ∀ s x, Γ.unmarshalText i (Γ.zeroOther i) s = .ok x → Γ.isKey i (keyValue x)) (hp : NoPanics Γ cfg) (pools : Pools) {T : Ty}
    {old : Val F} (hold : HasTy Γ L T old) : Harmless (unmarshalProg Γ cfg pools T old) :=
  C08_unmarshal ⟨h32, h64, hf, fun _ _ hd => C28_described_names h hd⟩ ⟨fun _ _ _ hd hm => C28_described_path h hd hm, hz, hk⟩ hp pools hold

/-! ## A case -/

/-- The types `R`, `Q` and `P` of the examples with the fields the library computes. -/
def describedEnv : TyEnv (List Byte) where
  defn i := if i < 9 then .struct (((describeStruct sampleStructEnv false (.named i)).getD []).map toField) else .slice .bool
  zeroNamed
    | 6 => .struct [.int 0, .int 0, .int 0]
    | 7 => .struct [.int 0, .bool false, .int 0, .nilPtr]
    | 8 => .struct [.struct [.int 0, .int 0, .int 0], .nilPtr, .str []]
    | _ => .nilSlice
  zeroOther _ := .other 0
  unmarshalJSON _ v _ := .ok v
  unmarshalText _ v _ := .ok v

example : Described sampleStructEnv false describedEnv (fun i => ((sampleStructs i).getD []).map (·.ty)) := by
  constructor
  · intro t sfs h
    cases t with
    | named i =>
      have hi : i < 9 := by
        have := sampleStructEnv.complete (.named i) (by rw [h]; rfl)
        simpa [sampleStructEnv] using this
      exact ⟨i, _, rfl, if_pos hi⟩
    | _ => simp [sampleStructEnv] at h
  · intro i fs h
    by_cases hi : i < 9
    · have hs : ∃ sfs, sampleStructs i = some sfs := by
        match i, hi with
        | 0, _ | 1, _ | 2, _ | 3, _ | 4, _ | 5, _ | 6, _ | 7, _ | 8, _ => exact ⟨_, rfl⟩
      obtain ⟨sfs, hs⟩ := hs
      obtain ⟨out, ho⟩ := C28_terminates (E := sampleStructEnv) (ot := false) (S := .named i) ⟨sfs, hs⟩
      refine ⟨sfs, out, hs, by simp [hs], ho, ?_⟩
      simp only [describedEnv, hi, if_true, ho] at h
      simp at h
      rw [← h]
    · simp [describedEnv, hi] at h

/-- Decoding through an embedded pointer to the type itself. -/
example :
    (match Unmarshal describedEnv sampleCfg samplePools sampleIt (bs! "{\"X\":5,\"W\":7,\"Z\":true,\"Y\":\"s\"}") (.named 8)
      (describedEnv.zeroNamed 8) with
    | .ok (.struct [.struct [.int a, .int b, .int c], .ptr (.struct [.int d, .bool e, .int f, .nilPtr]), .str s]) =>
      (a, b, c, d, e, f, s) == (0, 0, 0, 5, true, 0, bs! "s")
    | _ => false) = true := by decide +kernel

end Jzon.Props
