import Verif.Spec.Setting

/-!
# The option EscapeHTML of the configuration plays no part once the streamer is made
-/

set_option linter.unusedSimpArgs false

namespace Jzon

open Spec

variable {F : Type}

/-- The two encoders do the same without the option `string`. -/
structure SameEnc (e e' : ValEncoder F) : Prop where
  isEmpty : e.isEmpty = e'.isEmpty
  encode : ∀ v s, e.encode false v s = e'.encode false v s

theorem SameEnc.refl (e : ValEncoder F) : SameEnc e e := ⟨rfl, fun _ _ => rfl⟩

theorem elemsEncode_same {e e' : ValEncoder F} (h : SameEnc e e') (vs : List (Val F)) (s : Streamer) :
    elemsEncode e vs s = elemsEncode e' vs s := by
  induction vs generalizing s with
  | nil => rfl
  | cons v vs ih => simp only [elemsEncode, h.encode, ih]

variable {E : EncEnv F} {html : Bool}

theorem keyEncode_html (k : KeyTy) (key : Key) (s : Streamer) : keyEncode (withHTML E html) k key s = keyEncode E k key s := rfl

theorem membersEncode_same {e e' : ValEncoder F} (h : SameEnc e e') (k : KeyTy) (m : Key → Option (Val F)) (keys : List Key) (s : Streamer) :
    membersEncode (withHTML E html) k e m keys s = membersEncode E k e' m keys s := by
  induction keys generalizing s with
  | nil => rfl
  | cons key keys ih =>
    simp only [membersEncode, keyEncode_html, h.encode, ih]

theorem same_ptr {e e' : ValEncoder F} (h : SameEnc e e') : SameEnc (ptrEncoder e) (ptrEncoder e') :=
  ⟨rfl, fun v s => by simp only [ptrEncoder, h.encode]⟩

theorem same_prefer (T : Ty) {e e' : ValEncoder F} (h : SameEnc e e') :
    SameEnc (preferPtrEncoder (withHTML E html) T e) (preferPtrEncoder E T e') := by
  have hp : pointerMethod (withHTML E html) T = pointerMethod E T := by cases T <;> rfl
  unfold preferPtrEncoder
  rw [hp]
  split
  · exact .refl _
  · exact h

theorem same_slice (T : Ty) {e e' : ValEncoder F} (h : SameEnc e e') :
    SameEnc (sliceEncoderOf (withHTML E html) T e) (sliceEncoderOf E T e') := by
  have h' := same_prefer (E := E) (html := html) T h
  unfold sliceEncoderOf
  split
  · exact ⟨rfl, fun _ _ => rfl⟩
  · exact ⟨rfl, fun v s => by simp only [sliceEncoder, elemsEncode_same h']⟩

theorem same_array (n : Nat) (T : Ty) {e e' : ValEncoder F} (h : SameEnc e e') :
    SameEnc (arrayEncoderOf (withHTML E html) n T e) (arrayEncoderOf E n T e') := by
  have h' := same_prefer (E := E) (html := html) T h
  unfold arrayEncoderOf
  split
  · exact .refl _
  · exact ⟨rfl, fun v s => by simp only [arrayEncoder, elemsEncode_same h']⟩

theorem same_map (k : KeyTy) {e e' : ValEncoder F} (h : SameEnc e e') : SameEnc (mapEncoderOf (withHTML E html) k e) (mapEncoderOf E k e') := by
  have hk : keyCoder (withHTML E html) k = keyCoder E k := rfl
  unfold mapEncoderOf
  rw [hk]
  split
  · exact .refl _
  · exact ⟨rfl, fun v s => by simp only [mapEncoder, membersEncode_same h]; rfl⟩

theorem kindEmpty_html (Γ : TyEnv F) (T : Ty) : kindEmpty Γ (withHTML E html) T = kindEmpty Γ E T := by
  cases T <;> rfl

theorem same_any {rest rest' : Ty → ValEncoder F} (h : ∀ T, SameEnc (rest T) (rest' T)) :
    SameEnc (anyEncoder (withHTML E html) rest) (anyEncoder E rest') := by
  refine ⟨rfl, fun v s => ?_⟩
  simp only [anyEncoder, (h _).encode]
  rfl

theorem same_step (Γ : TyEnv F) {rest rest' : Ty → ValEncoder F} (h : ∀ T, SameEnc (rest T) (rest' T)) (T : Ty) :
    SameEnc (encoderStep Γ (withHTML E html) rest T) (encoderStep Γ E rest' T) := by
  induction T with
  | bool => exact .refl _
  | str => exact ⟨rfl, fun v s => rfl⟩
  | int w => exact .refl _
  | uint w => exact .refl _
  | float32 => exact .refl _
  | float64 => exact .refl _
  | number => exact .refl _
  | raw => exact .refl _
  | any => exact same_any h
  | ptr t ih =>
    have hp : pointerMethod (withHTML E html) t = pointerMethod E t := by cases t <;> rfl
    simp only [encoderStep, hp]
    split
    · exact .refl _
    · exact same_ptr ih
  | slice t ih => exact same_slice t ih
  | array n t ih => exact same_array n t ih
  | map k t ih => exact same_map k ih
  | jsonUnmarshaler i =>
    have hr : (withHTML E html).recv i = E.recv i := rfl
    have hu : (withHTML E html).under i = E.under i := rfl
    have hm : (withHTML E html).marshalJSON i = E.marshalJSON i := rfl
    simp only [encoderStep, hr, hu, hm, kindEmpty_html]
    split
    · exact .refl _
    · exact h _
  | textUnmarshaler i =>
    have hr : (withHTML E html).recv i = E.recv i := rfl
    have hu : (withHTML E html).under i = E.under i := rfl
    have hm : (withHTML E html).marshalText i = E.marshalText i := rfl
    simp only [encoderStep, hr, hu, hm, kindEmpty_html]
    split
    · exact .refl _
    · exact h _
  | unsupported => exact .refl _
  | named i => exact h _

/-- With the option `string` too, for the types a field with this option has. -/
theorem quoted_same (Γ : TyEnv F) {rest rest' : Ty → ValEncoder F} {T : Ty}
    (hT : match T with
      | .bool | .int _ | .uint _ | .float32 | .float64 | .number => True
      | .ptr .bool | .ptr (.int _) | .ptr (.uint _) | .ptr .float32 | .ptr .float64 | .ptr .number => True
      | _ => False) :
    preferPtrEncoder (withHTML E html) T (encoderStep Γ (withHTML E html) rest T) = preferPtrEncoder E T (encoderStep Γ E rest' T) := by
  split at hT
  all_goals first | rfl | exact hT.elim

theorem fieldsEncode_same {build build' : Ty → ValEncoder F} (h : ∀ T, SameEnc (build T) (build' T)) (v : Val F) (fs : List EncField)
    (hq : ∀ f ∈ fs, f.quoted = true → build f.ty = build' f.ty) (s : Streamer) : fieldsEncode build v fs s = fieldsEncode build' v fs s := by
  induction fs generalizing s with
  | nil => rfl
  | cons f fs ih =>
    have hv : fieldValue (build f.ty) f v = fieldValue (build' f.ty) f v := by simp only [fieldValue, (h f.ty).isEmpty]
    have he : ∀ x s, fieldEncode (build f.ty) f x s = fieldEncode (build' f.ty) f x s := by
      intro x s
      unfold fieldEncode
      cases hf : f.quoted with
      | true => rw [hq f (by simp) hf]
      | false => simp only [(h f.ty).encode]
    simp only [fieldsEncode, hv, he, ih (fun f hf => hq f (List.mem_cons_of_mem _ hf))]

theorem same_struct {build build' : Ty → ValEncoder F} (h : ∀ T, SameEnc (build T) (build' T)) (fs : List EncField)
    (hq : ∀ f ∈ fs, f.quoted = true → build f.ty = build' f.ty) : SameEnc (structEncoder build fs) (structEncoder build' fs) := by
  refine ⟨rfl, fun v s => ?_⟩
  simp only [structEncoder, fieldsEncode_same h _ fs hq]

theorem same_def {enc enc' : Ty → ValEncoder F} (h : ∀ T, SameEnc (enc T) (enc' T)) (i : Nat) (d : Def)
    (hq : ∀ f ∈ E.fields i, f.quoted = true → preferPtrEncoder (withHTML E html) f.ty (enc f.ty) = preferPtrEncoder E f.ty (enc' f.ty)) :
    SameEnc (defEncoder (withHTML E html) enc i d) (defEncoder E enc' i d) := by
  cases d with
  | slice t => exact same_slice t (h t)
  | array k t => exact same_array k t (h t)
  | map k t => exact same_map k (h t)
  | struct fs =>
    have hf : (withHTML E html).fields i = E.fields i := rfl
    simp only [defEncoder, hf]
    split
    · exact .refl _
    · exact same_struct (fun T => same_prefer T (h T)) _ hq

theorem same_unfolded (Γ : TyEnv F) (hq : NoQuotedStrings E) (n : Nat) (T : Ty) :
    SameEnc (unfoldedEncoder Γ (withHTML E html) n T) (unfoldedEncoder Γ E n T) := by
  induction n generalizing T with
  | zero => simp only [unfoldedEncoder]; exact .refl _
  | succ n ih =>
    have hs := fun T => same_step (E := E) (html := html) Γ ih T
    have hu : ∀ i, (withHTML E html).under i = E.under i := fun _ => rfl
    cases T with
    | named i =>
      simp only [unfoldedEncoder]
      exact same_def hs i _ (fun f hm hf => quoted_same Γ (hq i f hm hf))
    | jsonUnmarshaler i => simp only [unfoldedEncoder, hu]; exact hs _
    | textUnmarshaler i => simp only [unfoldedEncoder, hu]; exact hs _
    | bool | str | int _ | uint _ | float32 | float64 | number | raw | any | ptr _ | slice _ | array _ _ | map _ _ | unsupported =>
      simp only [unfoldedEncoder]; exact hs _

theorem value_html (Γ : TyEnv F) (hq : NoQuotedStrings E) (n : Nat) (T : Ty) (v : Val F) :
    Streamer.value Γ (withHTML E html) n T v = Streamer.value Γ E n T v := by
  funext s
  unfold Streamer.value encoderOf
  rw [(same_step (E := E) (html := html) Γ (fun T => same_unfolded Γ hq n T) T).encode]

end Jzon
