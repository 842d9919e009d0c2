import Verif.Model.Decoder
import Verif.Model.Eface
import Verif.Model.Marshal
import Verif.Proof.Stack

/-!
# Programs do not depend on what the pools contain

The program that a decoding function amounts to is the same for every stack object and every iterator the pools hand
out.
-/

set_option linter.unusedSimpArgs false

namespace Jzon

/-- Two stack objects with the same elements, whatever lies behind them. -/
def Stack.Same (s s' : Stack) : Prop := ∃ bits, s.Abs bits ∧ s'.Abs bits

theorem Stack.Same.initObject (s s' : Stack) : s.initObject.Same s'.initObject :=
  ⟨_, initObject_abs s, initObject_abs s'⟩

theorem Stack.Same.initArray (s s' : Stack) : s.initArray.Same s'.initArray :=
  ⟨_, initArray_abs s, initArray_abs s'⟩

theorem Stack.Same.pushObject {s s' : Stack} (h : s.Same s') :
    ∃ t t', s.pushObject = .ok t ∧ s'.pushObject = .ok t' ∧ t.Same t' := by
  obtain ⟨bits, h, h'⟩ := h
  obtain ⟨t, e, a⟩ := pushObject_abs h
  obtain ⟨t', e', a'⟩ := pushObject_abs h'
  exact ⟨t, t', e, e', _, a, a'⟩

theorem Stack.Same.pushArray {s s' : Stack} (h : s.Same s') :
    ∃ t t', s.pushArray = .ok t ∧ s'.pushArray = .ok t' ∧ t.Same t' := by
  obtain ⟨bits, h, h'⟩ := h
  obtain ⟨t, e, a⟩ := pushArray_abs h
  obtain ⟨t', e', a'⟩ := pushArray_abs h'
  exact ⟨t, t', e, e', _, a, a'⟩

theorem Stack.Same.pop {s s' : Stack} (h : s.Same s') :
    ∃ x t t', s.pop = .ok (x, t) ∧ s'.pop = .ok (x, t') ∧ t.Same t' := by
  obtain ⟨bits, h, h'⟩ := h
  cases bits with
  | nil => exact ⟨_, _, _, pop_nil h, pop_nil h', _, h, h'⟩
  | cons b bits =>
    obtain ⟨t, e, a⟩ := pop_cons h
    obtain ⟨t', e', a'⟩ := pop_cons h'
    exact ⟨_, t, t', e, e', _, a, a'⟩

section
variable {again : StackElem → Stack → Prog Unit} {s s' : Stack}

theorem skipMember_same (ha : ∀ top s s', s.Same s' → again top s = again top s') (h : s.Same s') :
    skipMember again s = skipMember again s' := by
  obtain ⟨t, t', e, e', a⟩ := h.pushObject
  simp only [skipMember, e, e', Prog.ofExcept, bind, Prog.bind, ha _ _ _ a, ha _ _ _ h]

theorem skipElement_same (ha : ∀ top s s', s.Same s' → again top s = again top s') (h : s.Same s') (c : Byte) :
    skipElement again s c = skipElement again s' c := by
  obtain ⟨t, t', e, e', a⟩ := h.pushArray
  simp only [skipElement, e, e', Prog.ofExcept, bind, Prog.bind, ha _ _ _ a, ha _ _ _ h]

end

theorem skipWithStack_same (n : Nat) : ∀ top s s', s.Same s' → skipWithStack n top s = skipWithStack n top s' := by
  induction n with
  | zero => intros; rfl
  | succ n ih =>
    intro top s s' h
    obtain ⟨x, t, t', e, e', a⟩ := h.pop
    simp only [skipWithStack, e, e', Prog.ofExcept, bind, Prog.bind, ih _ _ _ a, skipMember_same ih h,
      skipElement_same ih h]

theorem skipArrayLoop_pool (p p' : Stack) (n : Nat) : ∀ c, skipArrayLoop p n c = skipArrayLoop p' n c := by
  induction n with
  | zero => intros; rfl
  | succ n ih =>
    intro c
    simp only [skipArrayLoop, ih, skipWithStack_same _ _ _ _ (Stack.Same.initArray p p')]

theorem skipObjectLoop_pool (p p' : Stack) (n : Nat) : skipObjectLoop p n = skipObjectLoop p' n := by
  induction n with
  | zero => rfl
  | succ n ih => simp only [skipObjectLoop, ih, skipWithStack_same _ _ _ _ (Stack.Same.initObject p p')]

theorem skipFunction_pool (p p' : Stack) : skipFunction p = skipFunction p' := by
  funext c
  simp only [skipFunction, skipArrayWithStack, skipObjectWithStack, skipArrayLoop_pool p p', skipObjectLoop_pool p p']

theorem Skip_pool (p p' : Stack) : Skip p = Skip p' := by simp only [Skip, skipFunction_pool p p']

theorem SkipArray_pool (p p' : Stack) : SkipArray p = SkipArray p' := by
  simp only [SkipArray, skipArrayWithStack, skipArrayLoop_pool p p']

theorem SkipObject_pool (p p' : Stack) : SkipObject p = SkipObject p' := by
  simp only [SkipObject, skipObjectWithStack, skipObjectLoop_pool p p']

theorem SkipRaw_pool (p p' : Stack) : SkipRaw p = SkipRaw p' := by simp only [SkipRaw, skipFunction_pool p p']

theorem AppendRaw_pool (p p' : Stack) (b : List Byte) : AppendRaw p b = AppendRaw p' b := by
  simp only [AppendRaw, SkipRaw_pool p p']

theorem validProg_pool (p p' : Stack) : validProg p = validProg p' := by simp only [validProg, Skip_pool p p']

section
variable {F : Type} {cfg : ReadCfg F} {again : StackElem → Stack → NodeStack F → Prog (GoVal F)} {s s' : Stack}

theorem readMember_same (ha : ∀ top s s' ns, s.Same s' → again top s ns = again top s' ns) (h : s.Same s') (ns : NodeStack F) :
    readMember cfg again s ns = readMember cfg again s' ns := by
  obtain ⟨t, t', e, e', a⟩ := h.pushObject
  simp only [readMember, e, e', Prog.ofExcept, bind, Prog.bind, ha _ _ _ _ a, ha _ _ _ _ h]

theorem readElement_same (ha : ∀ top s s' ns, s.Same s' → again top s ns = again top s' ns) (h : s.Same s') (ns : NodeStack F)
    (c : Byte) : readElement cfg again s ns c = readElement cfg again s' ns c := by
  obtain ⟨t, t', e, e', a⟩ := h.pushArray
  simp only [readElement, e, e', Prog.ofExcept, bind, Prog.bind, ha _ _ _ _ a, ha _ _ _ _ h]

end

section
variable {F : Type} (cfg : ReadCfg F)

theorem readWithStack_same (n : Nat) :
    ∀ top s s' ns, s.Same s' → readWithStack cfg n top s ns = readWithStack cfg n top s' ns := by
  induction n with
  | zero => intros; rfl
  | succ n ih =>
    intro top s s' ns h
    obtain ⟨x, t, t', e, e', a⟩ := h.pop
    simp only [readWithStack, e, e', Prog.ofExcept, bind, Prog.bind, ih _ _ _ _ a, readMember_same ih h,
      readElement_same ih h]

theorem readArrayLoop_pool (p p' : Stack) (n : Nat) : ∀ vs c, readArrayLoop cfg p n vs c = readArrayLoop cfg p' n vs c := by
  induction n with
  | zero => intros; rfl
  | succ n ih =>
    intro vs c
    simp only [readArrayLoop, ih, readWithStack_same cfg _ _ _ _ _ (Stack.Same.initArray p p')]

theorem readObjectLoop_pool (p p' : Stack) (n : Nat) : ∀ m, readObjectLoop cfg p n m = readObjectLoop cfg p' n m := by
  induction n with
  | zero => intros; rfl
  | succ n ih =>
    intro m
    simp only [readObjectLoop, ih, readWithStack_same cfg _ _ _ _ _ (Stack.Same.initObject p p')]

theorem Read_pool (p p' : Stack) : Read cfg p = Read cfg p' := by
  simp only [Read, readFunction, readArrayWithStack, readObjectWithStack, readArrayLoop_pool cfg p p',
    readObjectLoop_pool cfg p p']

end

section
variable {F : Type}

theorem unquote_pool (it it' : It) : unquote it = unquote it' := rfl

theorem stringDecoder_pool (p p' : Pools) : (stringDecoder p : ValDecoder (Val F)) = stringDecoder p' := by
  funext o old
  simp only [stringDecoder, unquote_pool p.it p'.it]

theorem arrayLoop_pool (p p' : Pools) (k : Nat) (z : Val F) (elem : ValDecoder (Val F)) (n : Nat) :
    ∀ c vs, arrayLoop p k z elem n c vs = arrayLoop p' k z elem n c vs := by
  induction n with
  | zero => intros; rfl
  | succ n ih =>
    intro c vs
    simp only [arrayLoop, ih, Skip_pool p.stack p'.stack]

theorem arrayDecoder_pool (p p' : Pools) (k : Nat) (z : Val F) (elem : ValDecoder (Val F)) :
    arrayDecoder p k z elem = arrayDecoder p' k z elem := by
  funext o old
  simp only [arrayDecoder, arrayLoop_pool p p']

theorem keyDecoder_pool (Γ : TyEnv F) (p p' : Pools) (k : KeyTy) : (keyDecoder Γ p k : ValDecoder (Val F)) = keyDecoder Γ p' k := by
  cases k <;> simp only [keyDecoder, stringDecoder_pool p p']

theorem structMember_pool (cfg : DecCfg F) (p p' : Pools) (zero : Ty → Val F) (build : Ty → ValDecoder (Val F)) (fs : List Field) :
    structMember cfg p zero build fs = structMember cfg p' zero build fs := by
  funext name v
  simp only [structMember, Skip_pool p.stack p'.stack]

theorem decoderStep_pool (Γ : TyEnv F) (cfg : DecCfg F) (p p' : Pools) (named : Nat → ValDecoder (Val F)) (t : Ty) :
    decoderStep Γ cfg p named t = decoderStep Γ cfg p' named t := by
  induction t with
  | bool | int _ | uint _ | float32 | float64 | number | textUnmarshaler _ | unsupported | named _ => rfl
  | str => exact stringDecoder_pool p p'
  | raw =>
    funext o old
    simp only [decoderStep, rawDecoder, AppendRaw_pool p.stack p'.stack]
  | any =>
    funext o old
    simp only [decoderStep, anyDecoder, Read_pool _ p.stack p'.stack]
  | ptr t ih | slice t ih => simp only [decoderStep, ih]
  | array k t ih => simp only [decoderStep, ih, arrayDecoder_pool p p']
  | map k t ih => simp only [decoderStep, ih, keyDecoder_pool Γ p p']
  | jsonUnmarshaler i =>
    funext o old
    simp only [decoderStep, jsonUnmarshalerDecoder, SkipRaw_pool p.stack p'.stack]

theorem namedDecoder_pool (Γ : TyEnv F) (cfg : DecCfg F) (p p' : Pools) (n : Nat) :
    namedDecoder Γ cfg p n = namedDecoder Γ cfg p' n := by
  induction n with
  | zero => rfl
  | succ n ih =>
    have hs : ∀ t, decoderStep Γ cfg p (namedDecoder Γ cfg p n) t = decoderStep Γ cfg p' (namedDecoder Γ cfg p' n) t :=
      fun t => by rw [ih, decoderStep_pool Γ cfg p p']
    funext i
    unfold namedDecoder
    cases hd : Γ.defn i with
    | slice t => simp only [hs]
    | array k t => simp only [hs, arrayDecoder_pool p p']
    | map k t => simp only [hs, keyDecoder_pool Γ p p']
    | struct fs =>
      cases fs with
      | nil =>
        funext o old
        simp only [emptyObjectDecoder, skipFunction_pool p.stack p'.stack]
      | cons f fs =>
        simp only []
        rw [structMember_pool cfg p p', funext hs]

theorem decoderOf_pool (Γ : TyEnv F) (cfg : DecCfg F) (p p' : Pools) (n : Nat) :
    decoderOf Γ cfg p n = decoderOf Γ cfg p' n := by
  funext t
  simp only [decoderOf, namedDecoder_pool Γ cfg p p', decoderStep_pool Γ cfg p p']

theorem ReadVal_pool (Γ : TyEnv F) (cfg : DecCfg F) (p p' : Pools) (t : Ty) (old : Val F) :
    ReadVal Γ cfg p t old = ReadVal Γ cfg p' t old := by
  simp only [ReadVal, decoderOf_pool Γ cfg p p']

theorem unmarshalProg_pool (Γ : TyEnv F) (cfg : DecCfg F) (p p' : Pools) (t : Ty) (old : Val F) :
    unmarshalProg Γ cfg p t old = unmarshalProg Γ cfg p' t old := by
  simp only [unmarshalProg, ReadVal_pool Γ cfg p p']

theorem Decoder.call_pool (Γ : TyEnv F) (cfg : DecCfg F) (p p' : Pools) (d : Decoder) (c : DecCall F) :
    d.call Γ cfg p c = d.call Γ cfg p' c := by
  cases c <;> simp only [Decoder.call, Decoder.Decode, ReadVal_pool Γ _ p p']

theorem Decoder.calls_pool (Γ : TyEnv F) (cfg : DecCfg F) (p p' : Pools) (cs : List (DecCall F)) :
    ∀ d : Decoder, d.calls Γ cfg p cs = d.calls Γ cfg p' cs := by
  induction cs with
  | nil => intros; rfl
  | cons c cs ih =>
    intro d
    simp only [Decoder.calls, Decoder.call_pool Γ cfg p p', ih]

theorem decodeVar_pool (Γ : TyEnv F) (cfg : DecCfg F) (p p' : Pools) (n : Nat) :
    decodeVar Γ cfg p n = decodeVar Γ cfg p' n := by
  induction n with
  | zero => rfl
  | succ n ih =>
    funext m a s
    simp only [decodeVar, ih, decodeVarStep, ReadVal_pool Γ cfg p p', Read_pool _ p.stack p'.stack]

end

end Jzon
