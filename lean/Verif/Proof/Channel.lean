import Verif.Proof.Marshal

/-!
# Encoders leave the writer alone
-/

set_option linter.unusedSimpArgs false

namespace Jzon

open Spec

/-- Writer and options of the streamer are the same. -/
structure Kept (s s' : Streamer) : Prop where
  writer : s'.writer = s.writer
  html : s'.html = s.html

theorem Kept.refl (s : Streamer) : Kept s s := ⟨rfl, rfl⟩

theorem Kept.trans {a b c : Streamer} (h : Kept a b) (h' : Kept b c) : Kept a c :=
  ⟨h'.writer.trans h.writer, h'.html.trans h.html⟩

theorem Kept.ite {s a b : Streamer} {p : Prop} [Decidable p] (h : Kept s a) (h' : Kept s b) : Kept s (if p then a else b) := by
  split
  · exact h
  · exact h'

theorem kept_error (s : Streamer) (e : Option EncErr) : Kept s { s with error := e } := ⟨rfl, rfl⟩

theorem kept_fail (s : Streamer) (e : EncErr) : Kept s (s.fail e) := .ite (.refl _) (kept_error _ _)

theorem kept_onVal (s : Streamer) : Kept s s.onVal := by
  unfold Streamer.onVal
  split <;> exact ⟨rfl, rfl⟩

theorem kept_writeVal (s : Streamer) (f : List Byte → Option (List Byte)) : Kept s (s.writeVal f) := by
  unfold Streamer.writeVal
  refine .ite (.refl _) ?_
  have := kept_onVal s
  dsimp only
  split <;> exact ⟨this.writer, this.html⟩

theorem kept_null (s : Streamer) : Kept s s.null := kept_writeVal _ _
theorem kept_raw (s : Streamer) (t : List Byte) : Kept s (s.raw t) := kept_writeVal _ _
theorem kept_string (s : Streamer) (t : List Byte) : Kept s (s.string t) := kept_writeVal _ _
theorem kept_bool (s : Streamer) (b : Bool) : Kept s (s.bool b) := .ite (kept_writeVal _ _) (kept_writeVal _ _)

theorem kept_open (s : Streamer) (c : Byte) : Kept s { s.onVal with buffer := s.onVal.buffer ++ [c], poped := false } :=
  ⟨(kept_onVal s).writer, (kept_onVal s).html⟩

theorem kept_objectStart (s : Streamer) : Kept s s.objectStart := .ite (.refl _) (kept_open s _)
theorem kept_arrayStart (s : Streamer) : Kept s s.arrayStart := .ite (.refl _) (kept_open s _)
theorem kept_objectEnd (s : Streamer) : Kept s s.objectEnd := .ite (.refl _) ⟨rfl, rfl⟩
theorem kept_arrayEnd (s : Streamer) : Kept s s.arrayEnd := .ite (.refl _) ⟨rfl, rfl⟩
theorem kept_rawField (s : Streamer) (b : List Byte) : Kept s (s.rawField b) :=
  .ite (.refl _) ⟨(kept_onVal s).writer, (kept_onVal s).html⟩
theorem kept_field (s : Streamer) (b : List Byte) : Kept s (s.field b) := by
  unfold Streamer.field
  refine .ite (.refl _) ?_
  have := kept_onVal s
  dsimp only
  split <;> exact ⟨this.writer, this.html⟩
theorem kept_float (s : Streamer) (f : FloatArg) : Kept s (s.float f) :=
  .ite (.refl _) (.ite (kept_error _ _) (.ite (kept_error _ _) ⟨(kept_onVal s).writer, (kept_onVal s).html⟩))

section
variable {F : Type} {Γ : TyEnv F} {E : EncEnv F}

/-- The encoder leaves writer and options alone. -/
def Keeps (enc : ValEncoder F) : Prop := ∀ q v s, Kept s (enc.encode q v s)

theorem keeps_bool : Keeps (boolEncoder (F := F)) := by
  intro q v s
  simp only [boolEncoder]
  split
  · exact kept_null s
  · exact .ite (kept_bool s _) (.ite (kept_string s _) (kept_string s _))
  · exact kept_fail s _

theorem keeps_str : Keeps (stringEncoder E) := by
  intro q v s
  simp only [stringEncoder]
  split
  · exact kept_null s
  · refine .ite (kept_string s _) ?_
    split
    · exact kept_error s _
    · exact kept_string s _
  · exact kept_fail s _

theorem keeps_int (app : Int → List Byte → Option (List Byte)) : Keeps (intEncoder (F := F) app) := by
  intro q v s
  simp only [intEncoder]
  split
  · exact kept_null s
  · exact .ite (kept_writeVal s _) (kept_writeVal s _)
  · exact kept_fail s _

theorem keeps_float (arg : F → FloatArg) : Keeps (floatEncoder arg) := by
  intro q v s
  simp only [floatEncoder]
  split
  · exact kept_null s
  · exact kept_float s _
  · exact kept_fail s _

theorem keeps_number : Keeps (numberEncoder (F := F)) := by
  intro q v s
  simp only [numberEncoder]
  split
  · exact kept_null s
  · exact kept_raw s _
  · exact kept_fail s _

theorem keeps_raw : Keeps (rawEncoder (F := F)) := by
  intro q v s
  simp only [rawEncoder]
  split
  · exact kept_null s
  · exact kept_raw s _
  · exact kept_fail s _

theorem keeps_ptr {elem : ValEncoder F} (h : Keeps elem) : Keeps (ptrEncoder elem) := by
  intro q v s
  simp only [ptrEncoder]
  split
  · exact kept_null s
  · exact h _ _ _
  · exact h _ _ _
  · exact kept_fail s _

theorem kept_elems {elem : ValEncoder F} (h : Keeps elem) (vs : List (Val F)) (s : Streamer) : Kept s (elemsEncode elem vs s) := by
  induction vs generalizing s with
  | nil => exact kept_arrayEnd s
  | cons v vs ih => exact .ite (h _ _ _) ((h _ _ _).trans (ih _))

theorem keeps_slice {elem : ValEncoder F} (h : Keeps elem) : Keeps (sliceEncoder elem) := by
  intro q v s
  simp only [sliceEncoder]
  refine .ite (.refl _) ?_
  split
  · exact kept_null s
  · exact kept_null s
  · exact .ite (kept_raw s _) ((kept_arrayStart s).trans (kept_elems h _ _))
  · exact kept_fail s _

theorem keeps_base64 : Keeps (base64Encoder E) := by
  intro q v s
  simp only [base64Encoder]
  refine .ite (.refl _) ?_
  split
  · exact kept_null s
  · exact kept_null s
  · split
    · exact kept_fail s _
    · exact kept_writeVal s _
  · exact kept_fail s _

theorem keeps_emptyArray : Keeps (emptyArrayEncoder (F := F)) := by
  intro q v s
  simp only [emptyArrayEncoder]
  split
  · exact kept_null s
  · exact kept_raw s _
  · exact kept_fail s _

theorem keeps_array {n : Nat} {elem : ValEncoder F} (h : Keeps elem) : Keeps (arrayEncoder n elem) := by
  intro q v s
  simp only [arrayEncoder]
  split
  · exact kept_null s
  · exact .ite (kept_fail s _) ((kept_arrayStart s).trans (kept_elems h _ _))
  · exact kept_fail s _

theorem kept_key (K : KeyTy) (k : Key) (s : Streamer) : Kept s (keyEncode E K k s) := by
  unfold keyEncode
  split
  · exact kept_field s _
  · refine .ite (.refl _) ?_
    split
    · exact kept_error s _
    · exact ⟨(kept_string s _).writer, (kept_string s _).html⟩
  · refine .ite (.refl _) ?_
    split
    · exact kept_rawField s _
    · exact kept_fail s _
  · refine .ite (.refl _) ?_
    split
    · exact kept_rawField s _
    · exact kept_fail s _
  · exact kept_fail s _

theorem kept_members {K : KeyTy} {elem : ValEncoder F} (h : Keeps elem) (m : Key → Option (Val F)) (ks : List Key) (s : Streamer) :
    Kept s (membersEncode E K elem m ks s) := by
  induction ks generalizing s with
  | nil => exact kept_objectEnd s
  | cons k ks ih =>
    unfold membersEncode
    refine .ite (kept_key K k s) ((kept_key (E := E) K k s).trans ?_)
    split
    · exact kept_fail _ _
    · exact .ite (h _ _ _) ((h _ _ _).trans (ih _))

theorem keeps_map {K : KeyTy} {elem : ValEncoder F} (h : Keeps elem) : Keeps (mapEncoder E K elem) := by
  intro q v s
  simp only [mapEncoder]
  refine .ite (.refl _) ?_
  split
  · exact kept_null s
  · exact kept_null s
  · split
    · exact (kept_objectStart s).trans (kept_members h _ _ _)
    · exact kept_fail s _
  · exact kept_fail s _

theorem kept_fields {build : Ty → ValEncoder F} (h : ∀ T, Keeps (build T)) (v : Val F) (fs : List EncField) (s : Streamer) :
    Kept s (fieldsEncode build v fs s) := by
  induction fs generalizing s with
  | nil => exact kept_objectEnd s
  | cons f fs ih =>
    unfold fieldsEncode
    split
    · exact kept_fail s _
    · exact ih s
    · have : ∀ x, Kept s (fieldEncode (build f.ty) f x s) := by
        intro x
        unfold fieldEncode
        split
        · exact kept_fail s _
        · exact (kept_rawField s _).trans (h _ _ _ _)
      exact .ite (this _) ((this _).trans (ih _))

theorem keeps_struct {build : Ty → ValEncoder F} (h : ∀ T, Keeps (build T)) (fs : List EncField) : Keeps (structEncoder build fs) := by
  intro q v s
  simp only [structEncoder]
  refine .ite (.refl _) ?_
  split
  · exact kept_null s
  · exact (kept_objectStart s).trans (kept_fields h _ _ _)

theorem keeps_emptyStruct : Keeps (emptyStructEncoder (F := F)) := by
  intro q v s
  simp only [emptyStructEncoder]
  split
  · exact kept_null s
  · exact kept_raw s _
  · exact kept_fail s _

theorem kept_writeJSON (f : Val F → Except EncErr (List Byte)) (v : Val F) (s : Streamer) : Kept s (writeJSON f v s) := by
  unfold writeJSON
  split
  · exact kept_error s _
  · exact kept_raw s _

theorem kept_writeText (f : Val F → Except EncErr (List Byte)) (v : Val F) (s : Streamer) : Kept s (writeText f v s) := by
  unfold writeText
  split
  · exact kept_error s _
  · exact kept_string s _

theorem keeps_marshaler {isE : Val F → Except EncErr Bool} {write : Val F → Streamer → Streamer} (h : ∀ v s, Kept s (write v s)) :
    Keeps (marshalerEncoder isE write) := by
  intro q v s
  simp only [marshalerEncoder]
  refine .ite (.refl _) ?_
  split
  · exact kept_null s
  · exact h _ _

theorem keeps_pointerMarshaler {write : Val F → Streamer → Streamer} (h : ∀ v s, Kept s (write v s)) :
    Keeps (pointerMarshalerEncoder write) := by
  intro q v s
  simp only [pointerMarshalerEncoder]
  refine .ite (.refl _) ?_
  split
  · exact kept_null s
  · exact kept_null s
  · exact h _ _
  · exact kept_fail s _

theorem kept_pointerMethod {T : Ty} {write : Val F → Streamer → Streamer} (h : pointerMethod E T = some write) (v : Val F) (s : Streamer) :
    Kept s (write v s) := by
  unfold pointerMethod at h
  split at h
  · split at h
    · cases h
      exact kept_writeJSON _ _ _
    · cases h
  · split at h
    · cases h
      exact kept_writeText _ _ _
    · cases h
  · cases h

theorem keeps_direct {enc : ValEncoder F} (h : Keeps enc) : Keeps (directEncoder enc) := by
  intro q v s
  simp only [directEncoder]
  split
  · exact h _ _ _
  · exact h _ _ _

theorem keeps_prefer {T : Ty} {enc : ValEncoder F} (h : Keeps enc) : Keeps (preferPtrEncoder E T enc) := by
  unfold preferPtrEncoder
  split
  · rename_i w hw
    exact keeps_direct (keeps_pointerMarshaler (kept_pointerMethod hw))
  · exact h

theorem keeps_notSupported : Keeps (notSupportedEncoder (F := F)) := fun _ _ s => kept_fail s _

theorem keeps_any {rest : Ty → ValEncoder F} (h : ∀ T, Keeps (rest T)) : Keeps (anyEncoder E rest) := by
  intro q v s
  simp only [anyEncoder]
  split
  · exact kept_null s
  · refine .ite (.refl _) ?_
    split
    · exact kept_null s
    · exact keeps_bool _ _ _
    · exact keeps_number _ _ _
    · exact keeps_float _ _ _ _
    · exact keeps_str _ _ _
    · exact h _ _ _ _
    · exact h _ _ _ _
  · exact kept_fail s _

theorem keeps_sliceOf {T : Ty} {enc : ValEncoder F} (h : Keeps enc) : Keeps (sliceEncoderOf E T enc) := by
  unfold sliceEncoderOf
  split
  · exact keeps_base64
  · exact keeps_slice (keeps_prefer h)

theorem keeps_arrayOf {n : Nat} {T : Ty} {enc : ValEncoder F} (h : Keeps enc) : Keeps (arrayEncoderOf E n T enc) := by
  unfold arrayEncoderOf
  split
  · exact keeps_emptyArray
  · exact keeps_array (keeps_prefer h)

theorem keeps_mapOf {K : KeyTy} {enc : ValEncoder F} (h : Keeps enc) : Keeps (mapEncoderOf E K enc) := by
  unfold mapEncoderOf
  split
  · exact keeps_notSupported
  · exact keeps_map h

theorem keeps_step {rest : Ty → ValEncoder F} (h : ∀ T, Keeps (rest T)) (T : Ty) : Keeps (encoderStep Γ E rest T) := by
  induction T with
  | bool => exact keeps_bool
  | str => exact keeps_str
  | int w => exact keeps_int _
  | uint w => exact keeps_int _
  | float32 => exact keeps_float _
  | float64 => exact keeps_float _
  | number => exact keeps_number
  | raw => exact keeps_raw
  | any => exact keeps_any h
  | ptr t ih =>
    simp only [encoderStep]
    split
    · rename_i w hw
      exact keeps_pointerMarshaler (kept_pointerMethod hw)
    · exact keeps_ptr ih
  | slice t ih => exact keeps_sliceOf ih
  | array n t ih => exact keeps_arrayOf ih
  | map k t ih => exact keeps_mapOf ih
  | jsonUnmarshaler i =>
    simp only [encoderStep]
    split
    · exact keeps_marshaler (kept_writeJSON _)
    · exact h _
  | textUnmarshaler i =>
    simp only [encoderStep]
    split
    · exact keeps_marshaler (kept_writeText _)
    · exact h _
  | unsupported => exact keeps_notSupported
  | named i => exact h _

theorem keeps_unfolded (n : Nat) (T : Ty) : Keeps (unfoldedEncoder Γ E n T) := by
  induction n generalizing T with
  | zero => exact fun _ _ s => kept_fail s _
  | succ n ih =>
    have hs := keeps_step (Γ := Γ) (E := E) ih
    cases T with
    | named i =>
      simp only [unfoldedEncoder]
      cases Γ.defn i with
      | slice t => exact keeps_sliceOf (hs t)
      | array n t => exact keeps_arrayOf (hs t)
      | map k t => exact keeps_mapOf (hs t)
      | struct fs =>
        simp only [defEncoder]
        split
        · exact keeps_emptyStruct
        · exact keeps_struct (fun T => keeps_prefer (hs T)) _
    | jsonUnmarshaler i => exact hs _
    | textUnmarshaler i => exact hs _
    | _ => exact hs _

theorem kept_value (n : Nat) (T : Ty) (v : Val F) (s : Streamer) : Kept s (Streamer.value Γ E n T v s) :=
  .ite (.refl _) (keeps_step (keeps_unfolded n) T _ _ _)

end

end Jzon
