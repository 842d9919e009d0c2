import Verif.Model.Linked
import Verif.Props.Cache

/-!
# C45: the decoders that the cache hands out decode as their types say
-/

set_option linter.unusedSimpArgs false

namespace Jzon.Props

open Spec Jzon

section
variable {F : Type} {Γ : TyEnv F} {cfg : DecCfg F} {pools : Pools} {K : TyIds} {g : List DecObj}

theorem acts_unique {n : Nat} {c : Coder} {d d' : ValDecoder (Val F)} (h : Acts Γ cfg pools K g n c d) (h' : Acts Γ cfg pools K g n c d') :
    d = d' := by
  induction h generalizing d' with
  | prim n p d h =>
    cases h' with
    | prim _ _ _ h' => rw [h] at h'; exact Option.some.inj h'
    | deepPrim _ i hu => rw [hu] at h; cases h
    | empty _ _ i hu => rw [hu] at h; cases h
  | link n a u c d e ho hc h ih =>
    cases h' with
    | link _ _ u' c' d2 _ ho' hc' h' =>
      rw [ho] at ho'
      simp only [Option.some.injEq, DecObj.mk.injEq, List.cons.injEq, and_true] at ho'
      obtain ⟨rfl, rfl⟩ := ho'
      obtain rfl := ih hc'
      rw [h] at h'; exact Option.some.inj h'
    | deep _ o i ho' hu => rw [ho] at ho'; cases ho'; rw [hu] at h; cases h
    | named _ _ u' i cs ds _ ho' hl hu hc' h' =>
      rw [ho] at ho'
      simp only [Option.some.injEq, DecObj.mk.injEq] at ho'
      rw [ho'.1, hu] at h; cases h
  | deep a o i ho hu =>
    cases h' with
    | link _ _ u' c' d2 _ ho' hc' h' => rw [ho] at ho'; cases ho'; rw [hu] at h'; cases h'
    | deep => rfl
  | deepPrim p i hu =>
    cases h' with
    | prim _ _ _ h' => rw [hu] at h'; cases h'
    | deepPrim => rfl
  | named n a u i cs ds d ho hl hu hc h ih =>
    cases h' with
    | link _ _ u' c' d2 _ ho' hc' h' =>
      rw [ho] at ho'
      simp only [Option.some.injEq, DecObj.mk.injEq] at ho'
      rw [← ho'.1, hu] at h'; cases h'
    | named _ _ u' i' cs' ds' _ ho' hl' hu' hc' h' =>
      rw [ho] at ho'
      simp only [Option.some.injEq, DecObj.mk.injEq] at ho'
      obtain ⟨rfl, e⟩ := ho'
      have e : cs = cs' := (List.map_inj_right (fun _ _ h => Option.some.inj h)).mp e
      subst e
      rw [hu] at hu'
      cases hu'
      have : ds = ds' := by
        apply List.ext_getElem (by omega)
        intro j h1 h2
        exact ih j (by omega) (hc' j (by omega))
      subst this
      rw [h] at h'; exact Option.some.inj h'
  | empty n p i hu h =>
    cases h' with
    | prim _ _ _ h' => rw [hu] at h'; cases h'
    | empty => rfl

theorem linkedMember_eq (zero : Ty → Val F) (build : Ty → ValDecoder (Val F)) (fs : List Field) :
    linkedMember cfg pools zero fs (fs.map fun f => build f.ty) = structMember cfg pools zero build fs := by
  funext name v
  unfold linkedMember structMember
  congr 1
  funext o
  cases o with
  | none => rfl
  | some i =>
    simp only [List.getElem?_map]
    cases fs[i]? <;> rfl

theorem complete_node {tt : DecTypes} {u : TypeId} {c : Coder} {kids : List TypeId} (hw : wanted tt u = .inr kids)
    (h : ∀ m, Complete tt g m u c) : ∃ (a : Nat) (ds : List Coder), c = .obj a ∧ g[a]? = some ⟨u, some (ds.map some)⟩ ∧
      ds.length = kids.length ∧ ∀ (j : Nat) (k : TypeId) (d : Coder), kids[j]? = some k → ds[j]? = some d → ∀ m, Complete tt g m k d := by
  have h1 := h 1
  unfold Complete at h1
  rw [hw] at h1
  obtain ⟨a, ds, rfl, e2, e3, _⟩ := h1
  refine ⟨a, ds, rfl, e2, e3, fun j k d hk hd m => ?_⟩
  have h2 := h (m + 1)
  unfold Complete at h2
  rw [hw] at h2
  obtain ⟨a', ds', e, e2', e3', h3⟩ := h2
  cases e
  rw [e2] at e2'
  simp only [Option.some.injEq, DecObj.mk.injEq, true_and] at e2'
  have e : ds = ds' := (List.map_inj_right (fun _ _ h => Option.some.inj h)).mp e2'
  subst e
  exact h3 j k d hk hd

theorem complete_one {tt : DecTypes} {u : TypeId} {c : Coder} {k : TypeId} (hw : wanted tt u = .inr [k])
    (h : ∀ m, Complete tt g m u c) : ∃ (a : Nat) (d : Coder), c = .obj a ∧ g[a]? = some ⟨u, some [some d]⟩ ∧ ∀ m, Complete tt g m k d := by
  obtain ⟨a, ds, e1, e2, e3, e4⟩ := complete_node hw h
  match ds, e3 with
  | [d], _ => exact ⟨a, d, e1, e2, e4 0 k d rfl rfl⟩

theorem complete_leaf {tt : DecTypes} {u : TypeId} {c : Coder} {p : Nat} (hw : wanted tt u = .inl p)
    (h : ∀ m, Complete tt g m u c) : c = .prim p := by
  have h1 := h 1
  unfold Complete at h1
  rw [hw] at h1
  exact h1

theorem wanted_decTypes (u : TypeId) : wanted (decTypes Γ K) u =
    match decShape Γ K u with
    | .prim p => .inl p
    | .native _ p => .inl p
    | .node kids => .inr kids := by
  unfold wanted decTypes
  simp only
  cases decShape Γ K u <;> rfl

theorem wanted_named {u : TypeId} {i : Nat} (hu : K.ty u = .named i) : wanted (decTypes Γ K) u =
    match Γ.defn i with
    | .slice t | .array _ t | .map _ t => .inr [K.id t]
    | .struct fs => if fs = [] then .inl u else .inr (fs.map fun f => K.id f.ty) := by
  rw [wanted_decTypes]
  unfold decShape
  rw [hu]
  show (match (match Γ.defn i with
    | .slice t | .array _ t | .map _ t => DecShape.node [K.id t]
    | .struct fs => if fs = [] then .prim u else .node (fs.map fun (f : Field) => K.id f.ty)) with
    | .prim p => .inl p
    | .native _ p => .inl p
    | .node kids => .inr kids : Nat ⊕ List TypeId) = _
  cases Γ.defn i with
  | struct fs => by_cases h : fs = [] <;> simp [h]
  | _ => rfl

/-- Complete decoders act as the decoders of their types, if those of named types do. -/
theorem acts_step (n : Nat) (named : Nat → ValDecoder (Val F))
    (hn : ∀ (i : Nat) (u : TypeId) (c : Coder), K.ty u = .named i → (∀ m, Complete (decTypes Γ K) g m u c) →
      Acts Γ cfg pools K g n c (named i))
    (t : Ty) (u : TypeId) (c : Coder) (hu : K.ty u = t) (h : ∀ m, Complete (decTypes Γ K) g m u c) :
    Acts Γ cfg pools K g n c (decoderStep Γ cfg pools named t) := by
  have hw := wanted_decTypes (Γ := Γ) (K := K) u
  unfold decShape at hw
  induction t generalizing u c with
  | named i => exact hn i u c hu h
  | ptr t ih | slice t ih | array k t ih | map k t ih =>
    rw [hu] at hw
    obtain ⟨a, d, rfl, e2, e3⟩ := complete_one hw h
    exact .link n a u d _ _ e2 (ih (K.id t) d (K.ty_id t) e3 (wanted_decTypes _)) (by rw [hu]; rfl)
  | _ =>
    rw [hu] at hw
    obtain rfl := complete_leaf hw h
    exact .prim n u _ (by rw [hu]; rfl)

theorem acts_named (n : Nat) (i : Nat) (u : TypeId) (c : Coder) (hu : K.ty u = .named i)
    (h : ∀ m, Complete (decTypes Γ K) g m u c) : Acts Γ cfg pools K g n c (namedDecoder Γ cfg pools n i) := by
  induction n generalizing i u c with
  | zero =>
    have hw := wanted_named (Γ := Γ) hu
    cases c with
    | prim p =>
      have : p = u := by
        cases hd : Γ.defn i with
        | struct fs =>
          rw [hd] at hw
          by_cases hf : fs = []
          · simp only [hf, if_true] at hw
            exact Coder.prim.inj (complete_leaf hw h)
          · simp only [hf, if_false] at hw
            obtain ⟨a, ds, e, _⟩ := complete_node hw h
            cases e
        | _ =>
          rw [hd] at hw
          obtain ⟨a, ds, e, _⟩ := complete_one hw h
          cases e
      subst this
      exact .deepPrim p i hu
    | obj a =>
      have : ∃ o, g[a]? = some o ∧ o.ty = u := by
        cases hd : Γ.defn i with
        | struct fs =>
          rw [hd] at hw
          by_cases hf : fs = []
          · simp only [hf, if_true] at hw
            cases (complete_leaf hw h)
          · simp only [hf, if_false] at hw
            obtain ⟨a, ds, e, e2, _⟩ := complete_node hw h
            cases e
            exact ⟨_, e2, rfl⟩
        | _ =>
          rw [hd] at hw
          obtain ⟨a, ds, e, e2, _⟩ := complete_one hw h
          cases e
          exact ⟨_, e2, rfl⟩
      obtain ⟨o, e, rfl⟩ := this
      exact .deep a o i e hu
  | succ n ih =>
    have hstep := acts_step (cfg := cfg) (pools := pools) n (namedDecoder Γ cfg pools n) ih
    have hw := wanted_named (Γ := Γ) hu
    unfold namedDecoder
    cases hd : Γ.defn i with
    | struct fs =>
      rw [hd] at hw
      cases fs with
      | nil =>
        simp only [if_true] at hw
        obtain rfl := complete_leaf hw h
        exact .empty n u i hu hd
      | cons f fs =>
        simp only [reduceCtorEq, if_false] at hw
        obtain ⟨a, cs, rfl, e2, e3, e4⟩ := complete_node hw h
        show Acts Γ cfg pools K g (n + 1) (.obj a) (structDecoder (structMember cfg pools (Γ.zero cfg) _ (f :: fs)))
        rw [← linkedMember_eq]
        refine .named n a u i cs ((f :: fs).map fun f => decoderStep Γ cfg pools (namedDecoder Γ cfg pools n) f.ty) _ e2 (by rw [e3]; simp) hu (fun j hj => ?_) (by rw [hd]; rfl)
        have hj' : j < (f :: fs).length := by rw [e3] at hj; simpa using hj
        simp only [List.getElem_map]
        refine hstep _ (K.id (f :: fs)[j].ty) _ (K.ty_id _) (e4 j _ _ ?_ (List.getElem?_eq_getElem hj))
        rw [List.getElem?_map, List.getElem?_eq_getElem hj']
        rfl
    | slice t | array k t | map k t =>
      rw [hd] at hw
      obtain ⟨a, d, rfl, e2, e3⟩ := complete_one hw h
      refine .named n a u i [d] [_] _ e2 rfl hu (fun j hj => ?_) (by rw [hd]; rfl)
      obtain rfl : j = 0 := by simpa using hj
      exact hstep t (K.id t) d (K.ty_id t) e3

theorem nativeSelf_decTypes : NativeSelf (decTypes Γ K) := by
  intro t k p h
  have h' : decShape Γ K t = .native k p := h
  have : k = t := by
    unfold decShape at h'
    cases hu : K.ty t with
    | named i =>
      rw [hu] at h'
      cases hd : Γ.defn i with
      | struct fs =>
        have h' : (if fs = [] then DecShape.prim t else .node (fs.map fun f => K.id f.ty)) = .native k p := by
          simpa only [hd] using h'
        by_cases hf : fs = []
        · rw [if_pos hf] at h'; cases h'
        · rw [if_neg hf] at h'; cases h'
      | _ => simp only [hd] at h'; cases h'
    | _ => rw [hu] at h'; cases h' <;> rfl
  rw [this] at h ⊢
  exact h

/-- C45 (decoders): whatever the goroutines do at the same time, a decoder that was handed out
for the type number `u` acts at any later time as the decoder of that type in the sense of the other properties (C24, C26, C29, C30,
C38, C39, C42 are about `decoderOf`), and as nothing else. -/
theorem C45_decodes {s s' : CacheState Coder (List DecObj) DecLoc}
    (hr : CacheRun (decBuilder (decTypes Γ K)) (decInit (decTypes Γ K)) s) {i : Nat} {u : TypeId} {c : Option Coder}
    (hl : (i, u, c) ∈ s.log) (hr' : CacheRun (decBuilder (decTypes Γ K)) s s') :
    ∃ x, c = some x ∧ ∀ n d, Acts Γ cfg pools K s'.glob n x d ↔ d = decoderOf Γ cfg pools n (K.ty u) := by
  obtain ⟨x, rfl, hx⟩ := C31_complete nativeSelf_decTypes hr hl hr'
  refine ⟨x, rfl, fun n d => ?_⟩
  have h := acts_step (cfg := cfg) (pools := pools) n (namedDecoder Γ cfg pools n) (acts_named n) (K.ty u) u x rfl hx
  exact ⟨fun h' => acts_unique h' h, fun e => e ▸ h⟩

end

/-! ### A numbering of the types, and a concrete case -/

def pairId (a b : Nat) : Nat := 2 ^ a * (2 * b + 1)

theorem pairId_inj {a b c d : Nat} (h : pairId a b = pairId c d) : a = c ∧ b = d := by
  unfold pairId at h
  induction a generalizing c with
  | zero =>
    cases c with
    | zero => simp only [Nat.pow_zero, Nat.one_mul] at h; exact ⟨rfl, by omega⟩
    | succ c =>
      rw [Nat.pow_succ, Nat.mul_comm (2 ^ c) 2, Nat.mul_assoc] at h
      omega
  | succ a ih =>
    cases c with
    | zero =>
      rw [Nat.pow_succ, Nat.mul_comm (2 ^ a) 2, Nat.mul_assoc] at h
      omega
    | succ c =>
      rw [Nat.pow_succ, Nat.pow_succ, Nat.mul_comm (2 ^ a) 2, Nat.mul_comm (2 ^ c) 2, Nat.mul_assoc, Nat.mul_assoc] at h
      have := ih (Nat.eq_of_mul_eq_mul_left (by decide) h)
      omega

def widthId : Width → Nat
  | .w8 => 0
  | .w16 => 1
  | .w32 => 2
  | .w64 => 3

def keyTyId : KeyTy → Nat
  | .str => 0
  | .int w => pairId 0 (widthId w)
  | .uint w => pairId 1 (widthId w)
  | .text i => pairId 2 i

def tyId : Ty → Nat
  | .bool => pairId 0 0
  | .str => pairId 1 0
  | .int w => pairId 2 (widthId w)
  | .uint w => pairId 3 (widthId w)
  | .float32 => pairId 4 0
  | .float64 => pairId 5 0
  | .number => pairId 6 0
  | .raw => pairId 7 0
  | .any => pairId 8 0
  | .ptr t => pairId 9 (tyId t)
  | .slice t => pairId 10 (tyId t)
  | .array n t => pairId 11 (pairId n (tyId t))
  | .map k t => pairId 12 (pairId (keyTyId k) (tyId t))
  | .named i => pairId 13 i
  | .jsonUnmarshaler i => pairId 14 i
  | .textUnmarshaler i => pairId 15 i
  | .unsupported => pairId 16 0

theorem widthId_inj {v w : Width} (h : widthId v = widthId w) : v = w := by
  cases v <;> cases w <;> simp [widthId] at h <;> rfl

theorem pairId_pos (a b : Nat) : 0 < pairId a b := Nat.mul_pos (Nat.pow_pos (by decide)) (by omega)

theorem keyTyId_inj {k l : KeyTy} (h : keyTyId k = keyTyId l) : k = l := by
  have pos := pairId_pos
  cases k <;> cases l <;> simp only [keyTyId] at h <;> try (first | rfl | exact absurd h (Nat.ne_of_lt (pos _ _)) | exact absurd h (Nat.ne_of_gt (pos _ _)))
  all_goals
    have h' := pairId_inj h
    first
    | exact absurd h'.1 (by decide)
    | rw [widthId_inj h'.2]
    | rw [h'.2]

theorem tyId_inj {s t : Ty} (h : tyId s = tyId t) : s = t := by
  induction s generalizing t with
  | ptr s ih | slice s ih =>
    cases t <;> simp only [tyId] at h <;> (have h' := pairId_inj h) <;> try (exact absurd h'.1 (by decide))
    rw [ih h'.2]
  | array n s ih =>
    cases t <;> simp only [tyId] at h <;> (have h' := pairId_inj h) <;> try (exact absurd h'.1 (by decide))
    rw [(pairId_inj h'.2).1, ih (pairId_inj h'.2).2]
  | map k s ih =>
    cases t <;> simp only [tyId] at h <;> (have h' := pairId_inj h) <;> try (exact absurd h'.1 (by decide))
    rw [keyTyId_inj (pairId_inj h'.2).1, ih (pairId_inj h'.2).2]
  | int v | uint v =>
    cases t <;> simp only [tyId] at h <;> (have h' := pairId_inj h) <;> try (exact absurd h'.1 (by decide))
    rw [widthId_inj h'.2]
  | named i | jsonUnmarshaler i | textUnmarshaler i =>
    cases t <;> simp only [tyId] at h <;> (have h' := pairId_inj h) <;> try (exact absurd h'.1 (by decide))
    rw [h'.2]
  | _ => cases t <;> first | rfl | (simp only [tyId] at h; exact absurd (pairId_inj h).1 (by decide))

open Classical in
/-- There is a numbering of the types. -/
noncomputable def someIds : TyIds where
  id := tyId
  ty u := if h : ∃ t, tyId t = u then h.choose else .unsupported
  ty_id t := by
    have h : ∃ t', tyId t' = tyId t := ⟨t, rfl⟩
    rw [dif_pos h]
    exact tyId_inj h.choose_spec

/-- Type 0 is `type T struct { Next *T }`. -/
def listEnv : TyEnv Unit where
  defn _ := .struct [⟨bs! "Next", false, [.member 0], .ptr (.named 0)⟩]
  zeroNamed _ := .struct [.nilPtr]
  zeroOther _ := .other 0
  unmarshalJSON _ _ _ := .error .hang
  unmarshalText _ _ _ := .error .hang

/-- A goroutine asks for the decoder of `*T` with `T` as above, and gets one whose link leads back to it. -/
theorem listEnv_run (K : TyIds) (a b : TypeId) (ha : K.id (.ptr (.named 0)) = a) (hb : K.id (.named 0) = b) :
    ∃ s, CacheRun (decBuilder (decTypes listEnv K)) (decInit (decTypes listEnv K)) s ∧ s.log = [(1, a, some (.obj 0))] ∧
      s.glob = [⟨a, some [some (.obj 1)]⟩, ⟨b, some [some (.obj 0)]⟩] := by
  have ta : K.ty a = .ptr (.named 0) := by rw [← ha]; exact K.ty_id _
  have tb : K.ty b = .named 0 := by rw [← hb]; exact K.ty_id _
  have hab : a ≠ b := by intro e; rw [e, tb] at ta; cases ta
  have sa : (decTypes listEnv K).shape a = .node [b] := by
    show decShape listEnv K a = _
    unfold decShape
    rw [ta, ← hb]
  have sb : (decTypes listEnv K).shape b = .node [a] := by
    show decShape listEnv K b = _
    unfold decShape
    rw [tb, ← ha]
    rfl
  have r := CacheRun.refl (B := decBuilder (decTypes listEnv K)) (decInit (decTypes listEnv K))
  have r := r.tail 1 (.miss a rfl rfl)
  have r := r.tail 1 (.acquire a rfl rfl)
  have r := r.tail 1 (.begin a rfl rfl)
  have r := r.tail 1 (.build a _ _ _ rfl (.node a [] [b] rfl rfl sa))
  have r := r.tail 1 (.build a _ _ _ rfl (.node b [] [a] rfl (by simp [CacheState.goto, decBuilder, CoderMap.put, Ne.symm hab, decInit, decTypes]) sb))
  have r := r.tail 1 (.build a _ _ _ rfl (.visited a [] (.obj 0) rfl (by simp [CacheState.goto, decBuilder, CoderMap.put, hab, decInit, decTypes])))
  have r := r.tail 1 (.build a _ _ _ rfl (.rebuild a 0 [b] rfl (by simp [CacheState.goto, decBuilder, decInit]) sa))
  have r := r.tail 1 (.build a _ _ _ rfl (.rebuild b 1 [a] rfl (by simp [CacheState.goto, decBuilder, decInit, Ne.symm hab]) sb))
  have r := r.tail 1 (.publish a _ _ rfl (by simp [CacheState.goto, decBuilder, decInit, hab]; rfl))
  have r := r.tail 1 (.release a _ rfl)
  refine ⟨_, r, ?_, ?_⟩
  · simp [CacheState.goto, decBuilder, CoderMap.put, decInit, decTypes, hab]
  · simp [CacheState.goto, decBuilder, CoderMap.put, decInit, decTypes, hab]

/-- By `C45_decodes` this decoder acts as `decoderOf` for `*T`, at any depth. -/
example (K : TyIds) (cfg : DecCfg Unit) (pools : Pools) :
    ∃ s, CacheRun (decBuilder (decTypes listEnv K)) (decInit (decTypes listEnv K)) s ∧
      ∀ n d, Acts listEnv cfg pools K s.glob n (.obj 0) d ↔ d = decoderOf listEnv cfg pools n (.ptr (.named 0)) := by
  obtain ⟨s, h1, h2, h3⟩ := listEnv_run K _ _ rfl rfl
  refine ⟨s, h1, ?_⟩
  obtain ⟨x, hx, h⟩ := C45_decodes (cfg := cfg) (pools := pools) h1 (by rw [h2]; exact List.mem_singleton.mpr rfl) (.refl _)
  cases hx
  rw [K.ty_id] at h
  exact h

end Jzon.Props
