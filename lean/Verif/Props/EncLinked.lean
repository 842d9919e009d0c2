import Verif.Spec.EncLinked
import Verif.Spec.EncSample
import Verif.Props.EncCache
import Verif.Props.Linked

/-!
# C45: the encoders that the cache hands out encode as their types say
-/

set_option linter.unusedSimpArgs false

namespace Jzon.Props

open Spec Jzon

section
variable {F : Type} {Γ : TyEnv F} {E : EncEnv F} {K : TyIds} {direct : Ty → Bool} {h : List EncObj}

theorem primEncoder_method {rest : Ty → ValEncoder F} {T : Ty} (hT : encoderTy E T ≠ T) : primEncoder Γ E rest T = none := by
  cases T <;> simp only [encoderTy, ne_eq, not_true_eq_false] at hT
  all_goals
    split at hT
    · simp only [primEncoder]; rename_i hr; rw [hr]; rfl
    · exact absurd rfl hT

theorem linkEncoder_method {d : ValEncoder F} {T : Ty} (hT : encoderTy E T ≠ T) : linkEncoder E d T = none := by
  cases T <;> simp only [encoderTy, ne_eq, not_true_eq_false] at hT <;> rfl

theorem encoderTy_named (i : Nat) : encoderTy E (.named i) = .named i := rfl

theorem eacts_unique {n : Nat} {o : Option Ty} {c : ECoder} {d d' : ValEncoder F} (h1 : EActs Γ E K h n o c d)
    (h2 : EActs Γ E K h n o c d') : d = d' := by
  induction h1 generalizing d' with
  | self n c T d hT hc ih =>
    cases h2 with
    | self _ _ T' _ hT' hc' => rw [hT] at hT'; cases hT'; exact ih hc'
    | base64 => cases hT
    | direct => cases hT
  | base64 n =>
    cases h2 with
    | self _ _ T' _ hT' hc' => cases hT'
    | base64 => rfl
  | direct n c d hc ih =>
    cases h2 with
    | self _ _ T' _ hT' hc' => cases hT'
    | direct _ _ _ hc' => rw [ih hc']
  | prim n p T d hd =>
    cases h2 with
    | prim _ _ _ _ hd' => rw [hd] at hd'; exact Option.some.inj hd'
    | deep => cases hd
    | namedPrim => cases hd
    | method _ _ U _ _ hT hU hc => rw [primEncoder_method (by rw [hT]; exact hU)] at hd; cases hd
    | methodDeep _ _ hU => rw [primEncoder_method hU] at hd; cases hd
  | link n a o T c d e ho hl hc hd ih =>
    cases h2 with
    | link _ _ o' _ c' d2 _ ho' hl' hc' hd' =>
      rw [ho] at ho'; cases ho'
      rw [hl] at hl'; cases hl'
      rw [ih hc'] at hd
      rw [hd] at hd'; exact Option.some.inj hd'
    | deep => cases hd
    | named => cases hd
    | method _ _ U _ _ hT hU hc => rw [linkEncoder_method (by rw [hT]; exact hU)] at hd; cases hd
    | methodDeep _ _ hU => rw [linkEncoder_method hU] at hd; cases hd
  | deep c i =>
    cases h2 with
    | deep => rfl
    | prim _ _ _ _ hd => cases hd
    | link _ _ _ _ _ _ _ _ _ _ hd => cases hd
    | methodDeep _ _ hU => rfl
  | named n a o i cs ds d ho hl hn hc hd ih =>
    cases h2 with
    | link _ _ _ _ _ _ _ _ _ _ hd => cases hd
    | named _ _ o' _ cs' ds' _ ho' hl' hn' hc' hd' =>
      rw [ho] at ho'; cases ho'
      rw [hl] at hl'
      have e : cs = cs' := (List.map_inj_right (fun _ _ h => Option.some.inj h)).mp hl'
      subst e
      have : ds = ds' := by
        apply List.ext_getElem (by omega)
        intro j h1 h2
        exact ih j (by omega) (hc' j (by omega))
      subst this
      rw [hd] at hd'; exact Option.some.inj hd'
    | method _ _ U _ _ hT hU hc => exact absurd hT.symm hU
  | namedPrim n p i d hd =>
    cases h2 with
    | prim _ _ _ _ hd => cases hd
    | namedPrim _ _ _ _ hd' => rw [hd] at hd'; exact Option.some.inj hd'
    | method _ _ U _ _ hT hU hc => exact absurd hT.symm hU
  | method n T U c d hT hU hc ih =>
    cases h2 with
    | prim _ _ _ _ hd => rw [primEncoder_method (by rw [hT]; exact hU)] at hd; cases hd
    | link _ _ _ _ _ _ _ _ _ _ hd => rw [linkEncoder_method (by rw [hT]; exact hU)] at hd; cases hd
    | named => exact absurd hT.symm hU
    | namedPrim => exact absurd hT.symm hU
    | method _ _ U' _ _ hT' hU' hc' => rw [hT] at hT'; cases hT'; exact ih hc'
  | methodDeep T c hU =>
    cases h2 with
    | prim _ _ _ _ hd => rw [primEncoder_method hU] at hd; cases hd
    | link _ _ _ _ _ _ _ _ _ _ hd => rw [linkEncoder_method hU] at hd; cases hd
    | deep => rfl
    | methodDeep => rfl

/-! ### Complete encoders -/

section
variable {tt : EncTypes}

/-- A link to an element. -/
def ElemAll (tt : EncTypes) (h : List EncObj) (e : TypeId) (d : ECoder) : Prop :=
  if specialPtr tt e = true then ∃ x, d = .direct x ∧ ∀ m, EncodesAt tt h m (tt.ptrTo e) x else ∀ m, EncodesAt tt h m e d

theorem encodesAt_prim {u : TypeId} {c : ECoder} {p : Nat} {b : Bool} (hw : ewanted tt u = .prim p b) (hc : ∀ m, EncodesAt tt h m u c) :
    c = .prim p := by
  have := hc 1
  unfold EncodesAt at this
  rw [hw] at this
  exact this

theorem encodesAt_ptr {u e : TypeId} {c : ECoder} (hw : ewanted tt u = .ptr e) (hc : ∀ m, EncodesAt tt h m u c) :
    ∃ a d, c = .obj a ∧ h[a]? = some ⟨u, true, [some d]⟩ ∧ ∀ m, EncodesAt tt h m e d := by
  have h1 := hc 1
  unfold EncodesAt at h1
  rw [hw] at h1
  obtain ⟨a, d, rfl, e2, _⟩ := h1
  refine ⟨a, d, rfl, e2, fun m => ?_⟩
  have h2 := hc (m + 1)
  unfold EncodesAt at h2
  rw [hw] at h2
  obtain ⟨a', d', e1, e2', e3⟩ := h2
  cases e1
  rw [e2] at e2'
  cases e2'
  exact e3

theorem encodesAt_map {u e : TypeId} {c : ECoder} (hw : ewanted tt u = .map e) (hc : ∀ m, EncodesAt tt h m u c) :
    ∃ a d, c = .obj a ∧ h[a]? = some ⟨u, false, [some d]⟩ ∧ ∀ m, EncodesAt tt h m e d := by
  have h1 := hc 1
  unfold EncodesAt at h1
  rw [hw] at h1
  obtain ⟨a, d, rfl, e2, _⟩ := h1
  refine ⟨a, d, rfl, e2, fun m => ?_⟩
  have h2 := hc (m + 1)
  unfold EncodesAt at h2
  rw [hw] at h2
  obtain ⟨a', d', e1, e2', e3⟩ := h2
  cases e1
  rw [e2] at e2'
  cases e2'
  exact e3

theorem elemAll_of {e : TypeId} {d : ECoder} (hd : ∀ m, if specialPtr tt e = true then ∃ x, d = .direct x ∧ EncodesAt tt h m (tt.ptrTo e) x
    else EncodesAt tt h m e d) : ElemAll tt h e d := by
  unfold ElemAll
  by_cases hs : specialPtr tt e = true
  · simp only [hs, if_true] at hd ⊢
    obtain ⟨x, rfl, _⟩ := hd 0
    refine ⟨x, rfl, fun m => ?_⟩
    obtain ⟨y, e, hy⟩ := hd m
    cases e
    exact hy
  · simp only [hs, if_false] at hd ⊢
    exact hd

theorem encodesAt_slice {u e : TypeId} {c : ECoder} (hw : ewanted tt u = .slice e) (hc : ∀ m, EncodesAt tt h m u c) :
    ∃ a d, c = .obj a ∧ h[a]? = some ⟨u, false, [some d]⟩ ∧ ElemAll tt h e d := by
  have h1 := hc 1
  unfold EncodesAt at h1
  rw [hw] at h1
  obtain ⟨a, d, rfl, e2, _⟩ := h1
  refine ⟨a, d, rfl, e2, elemAll_of fun m => ?_⟩
  have h2 := hc (m + 1)
  unfold EncodesAt at h2
  rw [hw] at h2
  obtain ⟨a', d', e1, e2', e3⟩ := h2
  cases e1
  rw [e2] at e2'
  cases e2'
  exact e3

theorem encodesAt_node {u : TypeId} {es : List TypeId} {b : Bool} {c : ECoder} (hw : ewanted tt u = .node es b)
    (hc : ∀ m, EncodesAt tt h m u c) : ∃ (a : Nat) (ds : List ECoder), c = .obj a ∧ h[a]? = some ⟨u, false, ds.map some⟩ ∧
      ds.length = es.length ∧ ∀ (i : Nat) (e : TypeId) (d : ECoder), es[i]? = some e → ds[i]? = some d → ElemAll tt h e d := by
  have h1 := hc 1
  unfold EncodesAt at h1
  rw [hw] at h1
  obtain ⟨a, ds, rfl, e2, e3, _⟩ := h1
  refine ⟨a, ds, rfl, e2, e3, fun i e d he hd => elemAll_of fun m => ?_⟩
  have h2 := hc (m + 1)
  unfold EncodesAt at h2
  rw [hw] at h2
  obtain ⟨a', ds', e1, e2', _, e4⟩ := h2
  cases e1
  rw [e2] at e2'
  simp only [Option.some.injEq, EncObj.mk.injEq, true_and] at e2'
  have e : ds = ds' := (List.map_inj_right (fun _ _ h => Option.some.inj h)).mp e2'
  subst e
  exact e4 i _ d he hd

end

/-! ### What the types want -/

local notation "TT" => encTypes Γ E K direct

theorem selfTy_prim (u : TypeId) : selfTy K h (.prim (encPrim K u)) = some (K.ty u) := by
  show encPrimTy K (encPrim K u) = _
  unfold encPrim
  by_cases hu : K.ty u = .uint .w8
  · rw [if_pos hu, hu]; rfl
  · rw [if_neg hu]; rfl

theorem specialPtr_iff {e : TypeId} (hk : K.id (K.ty e) = e) : specialPtr TT e = (pointerMethod E (K.ty e)).isSome := by
  unfold specialPtr encTypes
  simp only [hk, if_true, Option.isSome_none, Bool.false_or, K.ty_id, encoderTy, encShapeAs]
  cases hp : (pointerMethod E (K.ty e)).isSome <;> simp [hp, EncShape.isPtr]

theorem ewanted_eq {u : TypeId} (hk : K.id (K.ty u) = u) : ewanted TT u =
    match encShapeAs Γ E K direct u (encoderTy E (K.ty u)) with
    | .prim p d _ => .prim p d
    | .native _ p => .prim p false
    | .ptr e => .ptr e
    | .map e => .map e
    | .slice e bytes => if bytes = true ∧ specialPtr TT e = false ∧ plainCoder TT e = some uint8Coder then .prim base64Coder false else .slice e
    | .node es d => .node es d := by
  unfold ewanted encTypes
  simp only [hk, if_true]
  cases encShapeAs Γ E K direct u (encoderTy E (K.ty u)) <;> rfl

theorem slice_bytes (e : TypeId) (t : Ty) (he : K.ty e = t) (hk : K.id t = e) :
    (decide (t = .uint .w8) = true ∧ specialPtr TT e = false ∧ plainCoder TT e = some uint8Coder) ↔ t = .uint .w8 := by
  refine ⟨fun h => of_decide_eq_true h.1, fun ht => ⟨decide_eq_true ht, ?_, ?_⟩⟩
  · rw [specialPtr_iff (by rw [he]; exact hk), he, ht]; rfl
  · unfold plainCoder encTypes
    simp only [he, hk, if_true]
    simp only [ht, encoderTy, encShapeAs, encPrim, he, if_true, Option.getD_none]

/-- The links to elements act as they should. -/
theorem eacts_elem {n : Nat} {enc : ValEncoder F} {t : Ty}
    (henc : ∀ (u : TypeId) (c : ECoder), K.ty u = t → K.id t = u → (∀ m, EncodesAt TT h m u c) → EActs Γ E K h n none c enc)
    (e : TypeId) (he : K.ty e = t) (hk : K.id t = e) (d : ECoder) (hd : ElemAll TT h e d) :
    EActs Γ E K h n none d (preferPtrEncoder E t enc) := by
  unfold ElemAll at hd
  unfold preferPtrEncoder
  rw [specialPtr_iff (by rw [he]; exact hk), he] at hd
  cases hp : pointerMethod E t with
  | none =>
    rw [hp] at hd
    exact henc e d he hk hd
  | some w =>
    rw [hp] at hd
    simp only [Option.isSome_some, if_true] at hd
    obtain ⟨x, rfl, hx⟩ := hd
    have hu : K.ty ((TT).ptrTo e) = .ptr t := by
      show K.ty (if K.id (K.ty e) = e then K.id (.ptr (K.ty e)) else e) = _
      rw [he, if_pos hk, K.ty_id]
    have hw := ewanted_eq (Γ := Γ) (E := E) (direct := direct) (K := K) (u := (TT).ptrTo e) (by
      show K.id (K.ty (if K.id (K.ty e) = e then K.id (.ptr (K.ty e)) else e)) = if K.id (K.ty e) = e then K.id (.ptr (K.ty e)) else e
      rw [he, if_pos hk, K.ty_id])
    rw [hu] at hw
    simp only [encoderTy, encShapeAs, hp, Option.isSome_some, if_true] at hw
    obtain rfl := encodesAt_prim hw hx
    exact .direct n _ _ (.self n _ _ _ (selfTy_prim _) (by rw [hu]; exact .prim n _ _ _ (by simp [primEncoder, hp])))

theorem linkedFields_eq (build : Ty → ValEncoder F) (v : Val F) (fs : List EncField) (s : Streamer) :
    linkedFieldsEncode v (fs.zip (fs.map fun f => build f.ty)) s = fieldsEncode build v fs s := by
  induction fs generalizing s with
  | nil => rfl
  | cons f fs ih =>
    simp only [List.map_cons, List.zip_cons_cons, linkedFieldsEncode, fieldsEncode, ih]
    cases fieldValue (build f.ty) f v with
    | error e => rfl
    | ok o => cases o <;> rfl

theorem linkedStruct_eq (build : Ty → ValEncoder F) (fs : List EncField) :
    linkedStructEncoder (fs.zip (fs.map fun f => build f.ty)) = structEncoder build fs := by
  unfold linkedStructEncoder structEncoder
  congr 1
  funext q v s
  cases v with
  | none => rfl
  | some v => simp only [linkedFields_eq]

theorem encoderTy_cases (hM : NamesOk Γ E) (T : Ty) : encoderTy E T = T ∨ ∃ j, encoderTy E T = .named j := by
  cases T with
  | jsonUnmarshaler i | textUnmarshaler i =>
    by_cases hr : E.recv i = .pointer
    · obtain ⟨j, hj⟩ := hM.under i hr
      exact .inr ⟨j, by simp only [encoderTy, hr, if_true, hj]⟩
    · exact .inl (by simp only [encoderTy, hr, if_false])
  | _ => exact .inl rfl

/-- What a named type wants. -/
theorem ewanted_named (hM : NamesOk Γ E) {u : TypeId} {i : Nat} (hk : K.id (K.ty u) = u) (hu : encoderTy E (K.ty u) = .named i) : ewanted TT u =
    match Γ.defn i with
    | .slice t => .slice (K.id t)
    | .array n t => if n = 0 then .prim (encPrim K u) false else .node [K.id t] (direct (K.ty u))
    | .map k t => if keyCoder E k = none then .prim (encPrim K u) false else .map (K.id t)
    | .struct _ =>
      if (E.fields i).length = 0 then .prim (encPrim K u) false else .node ((E.fields i).map fun f => K.id f.ty) (direct (K.ty u)) := by
  rw [ewanted_eq hk, hu]
  unfold encShapeAs
  simp only
  cases hd : Γ.defn i with
  | slice t =>
    have ht : ¬t = .uint .w8 := fun e => hM.bytes i (by rw [hd, e])
    simp only [ht, decide_false, Bool.false_eq_true, false_and, if_false]
  | array n t => by_cases h0 : n = 0 <;> simp [h0]
  | map k t => by_cases h0 : keyCoder E k = none <;> simp [h0]
  | struct fs => by_cases h0 : (E.fields i).length = 0 <;> simp [h0]

theorem selfTy_named (hM : NamesOk Γ E) {u : TypeId} {i : Nat} {c : ECoder} (hk : K.id (K.ty u) = u) (hu : encoderTy E (K.ty u) = .named i)
    (hc : ∀ m, EncodesAt TT h m u c) : selfTy K h c = some (K.ty u) := by
  have hw := ewanted_named (direct := direct) hM hk hu
  cases hd : Γ.defn i with
  | slice t =>
    rw [hd] at hw
    obtain ⟨a, d, rfl, e, _⟩ := encodesAt_slice hw hc
    simp [selfTy, e]
  | map k t =>
    rw [hd] at hw
    by_cases h0 : keyCoder E k = none
    · simp only [h0, if_true] at hw
      obtain rfl := encodesAt_prim hw hc
      exact selfTy_prim u
    · simp only [h0, if_false] at hw
      obtain ⟨a, d, rfl, e, _⟩ := encodesAt_map hw hc
      simp [selfTy, e]
  | array n t =>
    rw [hd] at hw
    by_cases h0 : n = 0
    · simp only [h0, if_true] at hw
      obtain rfl := encodesAt_prim hw hc
      exact selfTy_prim u
    · simp only [h0, if_false] at hw
      obtain ⟨a, d, rfl, e, _⟩ := encodesAt_node hw hc
      simp [selfTy, e]
  | struct fs =>
    rw [hd] at hw
    by_cases h0 : (E.fields i).length = 0
    · simp only [h0, if_true] at hw
      obtain rfl := encodesAt_prim hw hc
      exact selfTy_prim u
    · simp only [h0, if_false] at hw
      obtain ⟨a, d, rfl, e, _⟩ := encodesAt_node hw hc
      simp [selfTy, e]

/-- Encoders of types that are not named act as the encoders of their types, if those of named types do. -/
theorem eacts_step (hM : NamesOk Γ E) (n : Nat)
    (hn : ∀ m, m ≤ n → ∀ (i : Nat) (u : TypeId) (c : ECoder), K.id (K.ty u) = u → encoderTy E (K.ty u) = .named i → (∀ m, EncodesAt TT h m u c) →
      EActs Γ E K h m (some (.named i)) c (unfoldedEncoder Γ E m (.named i)))
    (t : Ty) (u : TypeId) (c : ECoder) (hu : K.ty u = t) (hid : K.id t = u) (hc : ∀ m, EncodesAt TT h m u c) :
    EActs Γ E K h n none c (encoderStep Γ E (unfoldedEncoder Γ E n) t) := by
  have hk : K.id (K.ty u) = u := by rw [hu]; exact hid
  induction t generalizing u c with
  | named i =>
    have he : encoderTy E (K.ty u) = .named i := by rw [hu]; rfl
    exact .self n c _ _ (by rw [selfTy_named hM hk he hc, hu]) (hn n (Nat.le_refl n) i u c hk he hc)
  | jsonUnmarshaler i | textUnmarshaler i =>
    cases hr : E.recv i with
    | value =>
      have hw := ewanted_eq (Γ := Γ) (E := E) (direct := direct) (K := K) hk
      rw [hu] at hw
      simp only [encoderTy, hr, reduceCtorEq, if_false, encShapeAs] at hw
      obtain rfl := encodesAt_prim hw hc
      refine .self n _ _ _ (selfTy_prim u) ?_
      rw [hu]
      exact .prim n _ _ _ (by simp only [primEncoder, hr, if_true, encoderStep])
    | pointer =>
      obtain ⟨j, hj⟩ := hM.under i hr
      have he : encoderTy E (K.ty u) = .named j := by rw [hu]; simp only [encoderTy, hr, if_true, hj]
      refine .self n c _ _ (selfTy_named hM hk he hc) ?_
      simp only [encoderStep, hr]
      have hne : encoderTy E (K.ty u) ≠ K.ty u := by rw [he, hu]; simp
      cases n with
      | zero => exact .methodDeep _ c hne
      | succ n =>
        refine .method n _ _ c _ he (by rw [← he]; exact hne) ?_
        simp only [unfoldedEncoder, hj, encoderStep]
        exact hn n (Nat.le_succ n) j u c hk he hc
  | ptr t ih =>
    have hw := ewanted_eq (Γ := Γ) (E := E) (direct := direct) (K := K) hk
    rw [hu] at hw
    simp only [encoderTy, encShapeAs] at hw
    simp only [encoderStep]
    cases hp : pointerMethod E t with
    | some w =>
      simp only [hp, Option.isSome_some, if_true] at hw
      obtain rfl := encodesAt_prim hw hc
      refine .self n _ _ _ (selfTy_prim u) ?_
      rw [hu]
      exact .prim n _ _ _ (by simp [primEncoder, hp])
    | none =>
      simp only [hp, Option.isSome_none, if_false, Bool.false_eq_true] at hw
      obtain ⟨a, d, rfl, e, hd⟩ := encodesAt_ptr hw hc
      refine .self n _ _ _ (by simp [selfTy, e, hu]) (.link n a _ (.ptr t) d _ _ e rfl (ih (K.id t) d (K.ty_id t) rfl hd (by rw [K.ty_id])) rfl)
  | map k t ih =>
    have hw := ewanted_eq (Γ := Γ) (E := E) (direct := direct) (K := K) hk
    rw [hu] at hw
    simp only [encoderTy, encShapeAs] at hw
    simp only [encoderStep, mapEncoderOf]
    by_cases h0 : keyCoder E k = none
    · simp only [h0, if_true] at hw ⊢
      obtain rfl := encodesAt_prim hw hc
      refine .self n _ _ _ (selfTy_prim u) ?_
      rw [hu]
      exact .prim n _ _ _ (by simp [primEncoder, h0])
    simp only [h0, if_false] at hw ⊢
    obtain ⟨a, d, rfl, e, hd⟩ := encodesAt_map hw hc
    refine .self n _ (.map k t) _ (by simp [selfTy, e, hu]) (.link n a _ (.map k t) d _ _ e rfl (ih (K.id t) d (K.ty_id t) rfl hd (by rw [K.ty_id])) rfl)
  | slice t ih =>
    have hw := ewanted_eq (Γ := Γ) (E := E) (direct := direct) (K := K) hk
    rw [hu] at hw
    simp only [encoderTy, encShapeAs, slice_bytes (K.id t) t (K.ty_id t) rfl] at hw
    simp only [encoderStep, sliceEncoderOf]
    by_cases ht : t = .uint .w8
    · simp only [ht, if_true] at hw ⊢
      obtain rfl := encodesAt_prim hw hc
      exact .base64 n
    · simp only [ht, if_false] at hw ⊢
      obtain ⟨a, d, rfl, e, hd⟩ := encodesAt_slice hw hc
      refine .self n _ (.slice t) _ (by simp [selfTy, e, hu]) (.link n a _ (.slice t) d _ _ e rfl ?_ rfl)
      exact eacts_elem (fun u c h1 h2 h3 => ih u c h1 h2 h3 (by rw [h1]; exact h2)) (K.id t) (K.ty_id t) rfl d hd
  | array k t ih =>
    have hw := ewanted_eq (Γ := Γ) (E := E) (direct := direct) (K := K) hk
    rw [hu] at hw
    simp only [encoderTy, encShapeAs] at hw
    simp only [encoderStep, arrayEncoderOf]
    by_cases h0 : k = 0
    · simp only [h0, if_true] at hw ⊢
      obtain rfl := encodesAt_prim hw hc
      refine .self n _ _ _ (selfTy_prim u) ?_
      rw [hu]
      exact .prim n _ _ _ (by simp [primEncoder, h0])
    · simp only [h0, if_false] at hw ⊢
      obtain ⟨a, ds, rfl, e, hl, hd⟩ := encodesAt_node hw hc
      match ds, hl with
      | [d], _ =>
        refine .self n _ (.array k t) _ (by simp [selfTy, e, hu]) (.link n a _ (.array k t) d _ _ e rfl ?_ rfl)
        exact eacts_elem (fun u c h1 h2 h3 => ih u c h1 h2 h3 (by rw [h1]; exact h2)) (K.id t) (K.ty_id t) rfl d (hd 0 _ _ rfl rfl)
  | _ =>
    have hw := ewanted_eq (Γ := Γ) (E := E) (direct := direct) (K := K) hk
    rw [hu] at hw
    obtain rfl := encodesAt_prim hw hc
    refine .self n _ _ _ (selfTy_prim u) ?_
    rw [hu]
    exact .prim n _ _ _ rfl

theorem eacts_named (hM : NamesOk Γ E) (n : Nat) : ∀ m, m ≤ n → ∀ (i : Nat) (u : TypeId) (c : ECoder), K.id (K.ty u) = u → encoderTy E (K.ty u) = .named i →
    (∀ m, EncodesAt TT h m u c) → EActs Γ E K h m (some (.named i)) c (unfoldedEncoder Γ E m (.named i)) := by
  induction n with
  | zero =>
    intro m hm i u c hk hu hc
    obtain rfl : m = 0 := by omega
    exact .deep c i
  | succ n ih =>
    intro m hm i u c hk hu hc
    rcases Nat.lt_or_ge n m with hlt | hge
    · obtain rfl : m = n + 1 := by omega
      have hstep := fun t => eacts_step hM n ih t
      have helem : ∀ (t : Ty) (d : ECoder), ElemAll TT h (K.id t) d →
          EActs Γ E K h n none d (preferPtrEncoder E t (encoderStep Γ E (unfoldedEncoder Γ E n) t)) :=
        fun t d => eacts_elem (hstep t) (K.id t) (K.ty_id t) rfl d
      have hw := ewanted_named (direct := direct) hM hk hu
      simp only [unfoldedEncoder]
      cases hd : Γ.defn i with
      | slice t =>
        rw [hd] at hw
        have ht : ¬t = .uint .w8 := fun e => hM.bytes i (by rw [hd, e])
        obtain ⟨a, d, rfl, e, he⟩ := encodesAt_slice hw hc
        simp only [defEncoder, sliceEncoderOf, ht, if_false]
        refine .named n a _ i [d] [_] _ e rfl rfl (fun j hj => ?_) (by rw [hd]; rfl)
        obtain rfl : j = 0 := by simpa using hj
        exact helem t d he
      | map k t =>
        rw [hd] at hw
        simp only [defEncoder, mapEncoderOf]
        by_cases h0 : keyCoder E k = none
        · simp only [h0, if_true] at hw ⊢
          obtain rfl := encodesAt_prim hw hc
          exact .namedPrim n _ i _ (by rw [hd]; simp [namedPrimEncoder, h0])
        simp only [h0, if_false] at hw ⊢
        obtain ⟨a, d, rfl, e, he⟩ := encodesAt_map hw hc
        refine .named n a _ i [d] [_] _ e rfl rfl (fun j hj => ?_) (by rw [hd]; rfl)
        obtain rfl : j = 0 := by simpa using hj
        exact hstep t (K.id t) d (K.ty_id t) rfl he
      | array k t =>
        rw [hd] at hw
        simp only [defEncoder, arrayEncoderOf]
        by_cases h0 : k = 0
        · simp only [h0, if_true] at hw ⊢
          obtain rfl := encodesAt_prim hw hc
          exact .namedPrim n _ i _ (by rw [hd]; simp [namedPrimEncoder, h0])
        · simp only [h0, if_false] at hw ⊢
          obtain ⟨a, ds, rfl, e, hl, he⟩ := encodesAt_node hw hc
          match ds, hl with
          | [d], _ =>
            refine .named n a _ i [d] [_] _ e rfl rfl (fun j hj => ?_) (by rw [hd]; rfl)
            obtain rfl : j = 0 := by simpa using hj
            exact helem t d (he 0 _ _ rfl rfl)
      | struct fs =>
        rw [hd] at hw
        simp only [defEncoder]
        by_cases h0 : (E.fields i).length = 0
        · simp only [h0, if_true] at hw ⊢
          obtain rfl := encodesAt_prim hw hc
          exact .namedPrim n _ i _ (by rw [hd]; simp [namedPrimEncoder, h0])
        · simp only [h0, if_false] at hw ⊢
          obtain ⟨a, ds, rfl, e, hl, he⟩ := encodesAt_node hw hc
          rw [← linkedStruct_eq]
          refine .named n a _ i ds
            ((E.fields i).map fun f => preferPtrEncoder E f.ty (encoderStep Γ E (unfoldedEncoder Γ E n) f.ty)) _ e rfl
            (by rw [hl]; simp) (fun j hj => ?_) (by rw [hd]; simp [namedLinkEncoder])
          have hj' : j < (E.fields i).length := by rw [hl] at hj; simpa using hj
          simp only [List.getElem_map]
          refine helem _ _ (he j _ _ ?_ (List.getElem?_eq_getElem hj))
          rw [List.getElem?_map, List.getElem?_eq_getElem hj']
          rfl
    · exact ih m (by omega) i u c hk hu hc

/-- Complete encoders act as the encoders of their types. -/
theorem eacts_of_encodesAt (hM : NamesOk Γ E) (n : Nat) {u : TypeId} {c : ECoder} (hk : K.id (K.ty u) = u) (hc : ∀ m, EncodesAt TT h m u c) :
    EActs Γ E K h n none c (encoderOf Γ E n (K.ty u)) :=
  eacts_step hM n (eacts_named hM n) (K.ty u) u c rfl hk hc

theorem encTypesOk (hM : NamesOk Γ E) : EncTypesOk TT where
  native t k p hs := by
    have : k = t := by
      have hs : (if K.id (K.ty t) = t then encShapeAs Γ E K direct t (encoderTy E (K.ty t)) else .prim (encPrim K t) false []) = .native k p := hs
      by_cases hk : K.id (K.ty t) = t
      · rw [if_pos hk] at hs
        rcases encoderTy_cases hM (K.ty t) with he | ⟨j, he⟩
        · rw [he] at hs
          revert hs
          cases K.ty t with
          | named i =>
            simp only [encShapeAs]
            cases Γ.defn i with
            | array n t => simp only; by_cases h0 : n = 0 <;> simp [h0]
            | map k t => simp only; by_cases h0 : keyCoder E k = none <;> simp [h0]
            | struct fs => simp only; by_cases h0 : (E.fields i).length = 0 <;> simp [h0]
            | _ => simp
          | ptr t => simp only [encShapeAs]; by_cases h0 : (pointerMethod E t).isSome = true <;> simp [h0]
          | array n t => simp only [encShapeAs]; by_cases h0 : n = 0 <;> simp [h0]
          | map k t => simp only [encShapeAs]; by_cases h0 : keyCoder E k = none <;> simp [h0]
          | _ => simp only [encShapeAs]; intro e; cases e <;> rfl
        · rw [he] at hs
          revert hs
          simp only [encShapeAs]
          cases Γ.defn j with
          | array n t => simp only; by_cases h0 : n = 0 <;> simp [h0]
          | map k t => simp only; by_cases h0 : keyCoder E k = none <;> simp [h0]
          | struct fs => simp only; by_cases h0 : (E.fields j).length = 0 <;> simp [h0]
          | _ => simp
      · rw [if_neg hk] at hs; cases hs
    rw [this] at hs ⊢
    exact hs
  ptr e e' hs := by
    unfold encTypes at hs
    simp only at hs
    by_cases hk : K.id (K.ty e) = e
    · simp only [hk, if_true, K.ty_id, encoderTy, encShapeAs] at hs
      by_cases hp : (pointerMethod E (K.ty e)).isSome = true
      · simp [hp] at hs
      · simp only [hp, if_false] at hs
        injection hs with hs
        exact hs.symm
    · simp only [hk, if_false] at hs
      cases hs

/-- The encoders of types without encoder do not look at the value. -/
theorem noEncoder_encode (hM : NamesOk Γ E) {T : Ty} (hT : NoEncoder Γ E (encoderTy E T)) (n : Nat) (q : Bool) (v w : Option (Val F))
    (s : Streamer) : (encoderOf Γ E n T).encode q v s = (encoderOf Γ E n T).encode q w s := by
  have hnamed : ∀ n j, NoEncoder Γ E (.named j) →
      (unfoldedEncoder Γ E n (.named j)).encode q v s = (unfoldedEncoder Γ E n (.named j)).encode q w s := by
    intro n j hd
    cases n with
    | zero => rfl
    | succ n =>
      simp only [NoEncoder] at hd
      cases hj : Γ.defn j with
      | map k t =>
        rw [hj] at hd
        simp only [unfoldedEncoder, hj, defEncoder, mapEncoderOf, show keyCoder E k = none from hd, if_true]
        rfl
      | _ => rw [hj] at hd; exact hd.elim
  unfold encoderOf
  cases T with
  | jsonUnmarshaler i | textUnmarshaler i =>
    simp only [encoderTy] at hT
    cases hr : E.recv i with
    | value => simp only [hr, reduceCtorEq, if_false] at hT; exact hT.elim
    | pointer =>
      simp only [hr, if_true] at hT
      obtain ⟨j, hj⟩ := hM.under i hr
      simp only [encoderStep, hr]
      cases n with
      | zero => rfl
      | succ n =>
        simp only [unfoldedEncoder]
        rw [hj] at hT ⊢
        exact hnamed n j hT
  | map k t => simp only [encoderStep, mapEncoderOf, show keyCoder E k = none from hT, if_true]; rfl
  | named j => exact hnamed n j hT
  | unsupported => rfl
  | _ => exact hT.elim

/-- The types that are stored directly in interfaces are known. -/
theorem ewanted_direct (hM : NamesOk Γ E) (hD : DirectOk Γ E direct) {u : TypeId} (hk : K.id (K.ty u) = u)
    (hne : ¬EmptyDirect Γ E direct (K.ty u)) :
    match ewanted TT u with
    | .prim _ d => direct (K.ty u) = d ∨ (NoEncoder Γ E (encoderTy E (K.ty u)) ∧ d = false)
    | .ptr e => ∃ t, K.ty u = .ptr t ∧ e = K.id t ∧ pointerMethod E t = none
    | .map _ => direct (K.ty u) = true
    | .slice _ => direct (K.ty u) = false
    | .node _ d => direct (K.ty u) = d := by
  have hw := ewanted_eq (Γ := Γ) (E := E) (direct := direct) hk
  have hnamed : ∀ j, encoderTy E (K.ty u) = .named j → direct (K.ty u) = direct (.named j) →
      match ewanted TT u with
      | .prim _ d => direct (K.ty u) = d ∨ (NoEncoder Γ E (encoderTy E (K.ty u)) ∧ d = false)
      | .ptr e => ∃ t, K.ty u = .ptr t ∧ e = K.id t ∧ pointerMethod E t = none
      | .map _ => direct (K.ty u) = true
      | .slice _ => direct (K.ty u) = false
      | .node _ d => direct (K.ty u) = d := by
    intro j he hd
    have hn := hD.named j
    rw [ewanted_named hM hk he]
    cases hj : Γ.defn j with
    | slice t => rw [hj] at hn; exact hd.trans hn
    | map k t =>
      rw [hj] at hn
      by_cases h0 : keyCoder E k = none
      · simp only [h0, if_true]
        refine .inr ⟨?_, trivial⟩
        rw [he]
        simp only [NoEncoder, hj, h0]
      · simp only [h0, if_false]; exact hd.trans hn
    | array n t =>
      rw [hj] at hn
      by_cases h0 : n = 0
      · simp only [h0, if_true]; exact .inl (hd.trans (hn h0))
      · simp only [h0, if_false]
    | struct fs =>
      by_cases h0 : (E.fields j).length = 0
      · simp only [h0, if_true]
        refine .inl ?_
        cases hb : direct (K.ty u) with
        | false => rfl
        | true => exact absurd ⟨hb, j, fs, he, hj, List.length_eq_zero_iff.mp h0⟩ hne
      · simp only [h0, if_false]
  cases hT : K.ty u with
  | named i => rw [hT] at hnamed; exact hnamed i rfl rfl
  | jsonUnmarshaler i =>
    cases hr : E.recv i with
    | value =>
      rw [hT] at hw
      simp only [encoderTy, hr, reduceCtorEq, if_false, encShapeAs, hT] at hw
      rw [hw]
      exact .inl rfl
    | pointer =>
      obtain ⟨j, hj⟩ := hM.under i hr
      rw [hT] at hnamed
      exact hnamed j (by simp only [encoderTy, hr, if_true, hj]) (by rw [hD.json, hj])
  | textUnmarshaler i =>
    cases hr : E.recv i with
    | value =>
      rw [hT] at hw
      simp only [encoderTy, hr, reduceCtorEq, if_false, encShapeAs, hT] at hw
      rw [hw]
      exact .inl rfl
    | pointer =>
      obtain ⟨j, hj⟩ := hM.under i hr
      rw [hT] at hnamed
      exact hnamed j (by simp only [encoderTy, hr, if_true, hj]) (by rw [hD.text, hj])
  | ptr t =>
    rw [hT] at hw
    simp only [encoderTy, encShapeAs] at hw
    cases hp : pointerMethod E t with
    | some w =>
      simp only [hp, Option.isSome_some, if_true] at hw
      rw [hw]
      exact .inl (hD.ptr t)
    | none =>
      simp only [hp, Option.isSome_none, if_false, Bool.false_eq_true] at hw
      rw [hw]
      exact ⟨t, rfl, rfl, hp⟩
  | map k t =>
    rw [hT] at hw
    simp only [encoderTy, encShapeAs] at hw
    by_cases h0 : keyCoder E k = none
    · simp only [h0, if_true] at hw
      rw [hw]
      exact .inr ⟨h0, rfl⟩
    · simp only [h0, if_false] at hw
      rw [hw]
      exact hD.map k t
  | slice t =>
    rw [hT] at hw
    simp only [encoderTy, encShapeAs] at hw
    rw [hw]
    split
    · rename_i p d h1
      split at h1
      · cases h1; exact .inl (hD.slice t)
      · cases h1
    all_goals
      rename_i h1
      split at h1 <;> cases h1
    exact hD.slice t
  | array n t =>
    rw [hT] at hw
    simp only [encoderTy, encShapeAs] at hw
    by_cases h0 : n = 0
    · simp only [h0, if_true] at hw
      rw [hw, h0]
      exact .inl (hD.noElem t)
    · simp only [h0, if_false, hT] at hw
      rw [hw]
  | unsupported =>
    rw [hT] at hw
    simp only [encoderTy, encShapeAs] at hw
    rw [hw]
    exact .inr ⟨trivial, rfl⟩
  | int w => rw [hT] at hw; rw [hw]; exact .inl (hD.int w)
  | uint w => rw [hT] at hw; rw [hw]; exact .inl (hD.uint w)
  | _ => rw [hT] at hw; rw [hw]; exact .inl (hD.plain _ (by simp))

theorem encodesAt_not_direct {tt : EncTypes} {u : TypeId} {c : ECoder} (hc : EncodesAt tt h 1 u c) (x : ECoder) : c ≠ .direct x := by
  rintro rfl
  unfold EncodesAt at hc
  split at hc
  · cases hc
  all_goals (obtain ⟨_, _, e, _⟩ := hc; cases e)

/-- The encoders in the published cache, called with the word of an interface. -/
theorem root_acts (hM : NamesOk Γ E) (hD : DirectOk Γ E direct) (n : Nat) {u : TypeId} {c : ECoder} (hk : K.id (K.ty u) = u)
    (hne : ¬EmptyDirect Γ E direct (K.ty u)) (hc : ∀ m, EncodesRoot TT h m u c) :
    RootActs Γ E K h direct n (K.ty u) c (encoderOf Γ E n (K.ty u)) := by
  have hw := ewanted_direct hM hD hk hne
  have key : ∀ x, (∀ m, EncodesAt TT h m u x) → EActs Γ E K h n none x (encoderOf Γ E n (K.ty u)) :=
    fun x hx => eacts_of_encodesAt hM n hk hx
  unfold EncodesRoot at hc
  cases he : ewanted TT u with
  | prim p d =>
    rw [he] at hc hw
    have hp : ∀ m, EncodesAt TT h m u (.prim p) := by
      intro m
      cases m with
      | zero => unfold EncodesAt; trivial
      | succ m => unfold EncodesAt; rw [he]
    have hc := hc 0
    simp only at hc hw
    rcases hw with hw | hw
    · cases d with
      | true => rw [hc]; exact .word n _ _ _ hw (key _ hp)
      | false => rw [hc]; exact .address n _ _ _ hw (key _ hp)
    · obtain ⟨hw, rfl⟩ := hw
      rw [hc]
      exact .unused n _ _ _ hw (by simp) (key _ hp) (noEncoder_encode hM hw n)
  | ptr e =>
    rw [he] at hc hw
    obtain ⟨t, ht, rfl, hp⟩ := hw
    have := eacts_of_encodesAt hM n (u := K.id t) (by rw [K.ty_id]) hc
    rw [K.ty_id] at this
    rw [ht]
    have e : encoderOf Γ E n (.ptr t) = ptrEncoder (encoderOf Γ E n t) := by
      unfold encoderOf
      conv => lhs; unfold encoderStep
      rw [hp]
    rw [e]
    exact .ptr n t c _ (encodesAt_not_direct (hc 1)) this
  | map e =>
    rw [he] at hc hw
    simp only at hc
    obtain ⟨x, rfl, _⟩ := hc 0
    exact .word n _ _ _ hw (key x fun m => by obtain ⟨y, e, hy⟩ := hc m; cases e; exact hy)
  | slice e =>
    rw [he] at hc hw
    exact .address n _ _ _ hw (key c hc)
  | node es d =>
    rw [he] at hc hw
    cases d with
    | true =>
      simp only [if_true] at hc
      obtain ⟨x, rfl, _⟩ := hc 0
      exact .word n _ _ _ hw (key x fun m => by obtain ⟨y, e, hy⟩ := hc m; cases e; exact hy)
    | false =>
      simp only [if_false, Bool.false_eq_true] at hc
      exact .address n _ _ _ hw (key c hc)

theorem rootActs_unique (hD : DirectOk Γ E direct) {n : Nat} {T : Ty} {c : ECoder} {d d' : ValEncoder F}
    (h1 : RootActs Γ E K h direct n T c d) (h2 : RootActs Γ E K h direct n T c d') : d = d' := by
  cases h1 with
  | ptr t _ d hn hc =>
    cases h2 with
    | ptr _ _ _ _ hc' => rw [eacts_unique hc hc']
    | unused _ _ _ ht => exact (show False from ht).elim
    | word _ _ _ _ _ => exact absurd rfl (hn _)
    | address _ _ _ hT _ => rw [hD.ptr] at hT; cases hT
  | word _ c _ hT hc =>
    cases h2 with
    | ptr _ _ _ hn _ => exact absurd rfl (hn _)
    | word _ _ _ _ hc' => exact eacts_unique hc hc'
    | address _ _ _ hT' _ => rw [hT] at hT'; cases hT'
    | unused _ _ _ _ hn _ _ => exact absurd rfl (hn _)
  | address _ _ _ hT hc =>
    cases h2 with
    | ptr _ _ _ hn _ => rw [hD.ptr] at hT; cases hT
    | word _ _ _ hT' _ => rw [hT] at hT'; cases hT'
    | address _ _ _ _ hc' => exact eacts_unique hc hc'
    | unused _ _ _ _ _ hc' _ => exact eacts_unique hc hc'
  | unused _ _ _ ht hn hc hd =>
    cases h2 with
    | ptr _ _ _ _ _ => exact (show False from ht).elim
    | word _ _ _ _ _ => exact absurd rfl (hn _)
    | address _ _ _ _ hc' => exact eacts_unique hc hc'
    | unused _ _ _ _ _ hc' _ => exact eacts_unique hc hc'

/-- C45 (encoders): whatever the goroutines do at the same time, an encoder that was handed out for
the type `T`, called with the word of an interface that holds a value of that type, acts at any later time as the encoder of that type
in the sense of the other properties (C25, C35, C36, C44 are about `encoderOf`), and as nothing else.  Not for structs that are stored directly in interfaces though they have
no fields to encode (`C45_empty_direct_violated`). -/
theorem C45_encodes_partial (hM : NamesOk Γ E) (hD : DirectOk Γ E direct) {s s' : CacheState ECoder EncGlob EncLoc}
    (hr : CacheRun (encBuilder TT) (encInit TT) s) {i : Nat} {T : Ty} {c : Option ECoder} (hne : ¬EmptyDirect Γ E direct T)
    (hl : (i, K.id T, c) ∈ s.log) (hr' : CacheRun (encBuilder TT) s s') :
    ∃ x, c = some x ∧ ∀ n d, RootActs Γ E K s'.glob.heap direct n T x d ↔ d = encoderOf Γ E n T := by
  obtain ⟨x, rfl, hx⟩ := C31_enc_complete (encTypesOk hM) hr hl hr'
  refine ⟨x, rfl, fun n d => ?_⟩
  have h := root_acts hM hD n (u := K.id T) (by rw [K.ty_id]) (by rw [K.ty_id]; exact hne) hx
  rw [K.ty_id] at h
  exact ⟨fun h' => rootActs_unique hD h' h, fun e => e ▸ h⟩

/-- C45 is violated for structs as `struct{ p *int }`: the encoder that is handed out for it writes `null` if the word in the
interface is nil, where the encoder of the type writes `{}`. -/
theorem C45_empty_direct_violated (hM : NamesOk Γ E) {s s' : CacheState ECoder EncGlob EncLoc}
    (hr : CacheRun (encBuilder TT) (encInit TT) s) {i j : Nat} {fs : List Field} {c : Option ECoder} (hj : Γ.defn j = .struct fs)
    (hf : E.fields j = []) (hd : direct (.named j) = true) (hl : (i, K.id (.named j), c) ∈ s.log) (hr' : CacheRun (encBuilder TT) s s') :
    ∃ x d, c = some x ∧ (∀ n, EActs Γ E K s'.glob.heap (n + 1) none x d) ∧ (∀ n d, ¬RootActs Γ E K s'.glob.heap direct n (.named j) x d) ∧
      (∀ q st, d.encode q none st = st.null) ∧
      ∀ n q v st, (encoderOf Γ E (n + 1) (.named j)).encode q (some (.struct [v])) st = st.raw (bs! "{}") := by
  obtain ⟨x, rfl, hx⟩ := C31_enc_complete (encTypesOk hM) hr hl hr'
  have hw := ewanted_named (K := K) (direct := direct) hM (u := K.id (.named j)) (i := j) (by rw [K.ty_id]) (by rw [K.ty_id]; rfl)
  rw [hj] at hw
  simp only [hf, List.length_nil, if_true] at hw
  have hc := hx 0
  unfold EncodesRoot at hc
  rw [hw] at hc
  simp only [Bool.false_eq_true, if_false] at hc
  subst hc
  refine ⟨_, emptyStructEncoder, rfl, fun n => ?_, fun n d h => ?_, fun _ _ => rfl, fun n q v st => ?_⟩
  · exact .self _ _ _ _ (selfTy_prim _) (by rw [K.ty_id]; exact .namedPrim n _ j _ (by rw [hj]; simp [namedPrimEncoder, hf]))
  · cases h with
    | address _ _ _ hT _ => rw [hd] at hT; cases hT
    | unused _ _ _ ht => simp only [encoderTy, NoEncoder, hj] at ht
  · show (unfoldedEncoder Γ E (n + 1) (.named j)).encode _ _ _ = _
    simp [unfoldedEncoder, hj, defEncoder, hf, emptyStructEncoder]

end

/-! ### A concrete case -/

/-- Type 0 is `type T struct { Next *T }`, type 1 is `type P struct { p *int }`, type 2 is `type M map[string]M`. -/
def wordEnv : TyEnv (List Byte) where
  defn
    | 0 => .struct [⟨bs! "Next", false, [.member 0], .ptr (.named 0)⟩]
    | 1 => .struct []
    | _ => .map .str (.named 2)
  zeroNamed
    | 0 | 1 => .struct [.nilPtr]
    | _ => .nilMap
  zeroOther _ := .other 0
  unmarshalJSON _ _ _ := .error .hang
  unmarshalText _ _ _ := .error .hang

/-- The method of the type with methods number 0 has a pointer as receiver, and it is like `T`. -/
noncomputable def wordEnc : EncEnv (List Byte) := { sampleEnc with
  fields := fun i => if i = 0 then [⟨bs! "Next", false, false, [.member 0], .ptr (.named 0)⟩] else []
  recv := fun i => if i = 0 then .pointer else .value
  under := fun _ => .named 0 }

/-- Pointers, maps, and structs with one pointer are stored directly. -/
def wordDirect : Ty → Bool
  | .ptr _ | .map _ _ | .named _ | .jsonUnmarshaler _ | .textUnmarshaler _ => true
  | _ => false

example : NamesOk wordEnv wordEnc where
  under _ _ := ⟨0, rfl⟩
  bytes i := by
    match i with
    | 0 | 1 => simp [wordEnv]
    | n + 2 => simp [wordEnv]

example : DirectOk wordEnv wordEnc wordDirect where
  ptr _ := rfl
  map _ _ := rfl
  plain t ht := by
    simp only [List.mem_cons, List.not_mem_nil, or_false] at ht
    rcases ht with rfl | rfl | rfl | rfl | rfl | rfl | rfl <;> rfl
  int _ := rfl
  uint _ := rfl
  slice _ := rfl
  noElem _ := rfl
  named i := by
    match i with
    | 0 | 1 => exact True.intro
    | n + 2 => exact rfl
  json _ := rfl
  text _ := rfl

example : EmptyDirect wordEnv wordEnc wordDirect (.named 1) ∧ ¬EmptyDirect wordEnv wordEnc wordDirect (.named 0) ∧
    ¬EmptyDirect wordEnv wordEnc wordDirect (.jsonUnmarshaler 0) := by
  refine ⟨⟨rfl, 1, [], rfl, rfl, rfl⟩, ?_, ?_⟩
  · rintro ⟨_, i, fs, h1, h2, h3⟩
    cases h1
    simp [wordEnc] at h3
  · rintro ⟨_, i, fs, h1, h2, h3⟩
    simp only [encoderTy, wordEnc, if_true] at h1
    cases h1
    simp [wordEnc] at h3

/-- A goroutine asks for the encoder of `P` and gets one; `C45_empty_direct_violated` says what it does. -/
example (K : TyIds) (u : TypeId) (hu : K.id (.named 1) = u) :
    ∃ s, CacheRun (encBuilder (encTypes wordEnv wordEnc K wordDirect)) (encInit (encTypes wordEnv wordEnc K wordDirect)) s ∧
      s.log = [(1, u, some (.prim (u + 2)))] := by
  have tu : K.ty u = .named 1 := by rw [← hu]; exact K.ty_id _
  have su : (encTypes wordEnv wordEnc K wordDirect).shape u = .prim (u + 2) false [] := by
    show (if K.id (K.ty u) = u then encShapeAs wordEnv wordEnc K wordDirect u (encoderTy wordEnc (K.ty u)) else _) = _
    rw [tu, if_pos hu]
    simp [encShapeAs, encoderTy, wordEnv, wordEnc, encPrim, tu]
  have r := CacheRun.refl (B := encBuilder (encTypes wordEnv wordEnc K wordDirect)) (encInit (encTypes wordEnv wordEnc K wordDirect))
  have r := r.tail 1 (.miss u rfl rfl)
  have r := r.tail 1 (.acquire u rfl rfl)
  have r := r.tail 1 (.begin u rfl rfl)
  have r := r.tail 1 (.build u _ _ _ rfl (.prim u [] (u + 2) false [] rfl rfl rfl su))
  have r := r.tail 1 (.build u _ _ _ rfl (.toBase64 rfl rfl))
  have r := r.tail 1 (.build u _ _ _ rfl (.toPtrs rfl rfl))
  have r := r.tail 1 (.build u _ _ _ rfl (.toOthers rfl rfl))
  have r := r.tail 1 (.publish u _ _ rfl rfl)
  have r := r.tail 1 (.release u _ rfl)
  refine ⟨_, r, ?_⟩
  simp [CacheState.goto, encBuilder, CoderMap.put, encInit, encTypes]

end Jzon.Props
