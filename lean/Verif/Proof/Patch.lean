import Verif.Proof.Walk
import Verif.Proof.TypedSafe
import Verif.Props.Str
import Verif.Spec.Again

/-!
# Decoding as a change that does not depend on the variable

For a type and a text there is a patch, a tree of changes; decoding applies it to the variable.  A patch that is applied twice, with
other patches in between, is the same as the second application alone.
-/

set_option linter.unusedSimpArgs false

namespace Jzon

open Spec

/-- A change of a variable. -/
inductive Patch (F : Type) where
  | keep
  | const (v : Val F)
  /-- through a pointer; `z` if it is nil -/
  | ptr (z : Val F) (p : Patch F)
  /-- element by element -/
  | arr (n : Nat) (z : Val F) (ps : Nat → Patch F)
  /-- some entries -/
  | map (m : Key → Option (Val F))
  /-- member by member -/
  | struct (ps : Nat → Patch F)

section
variable {F : Type}

def Patch.apply : Patch F → Val F → Val F
  | .keep, v => v
  | .const c, _ => c
  | .ptr z p, v => .ptr (p.apply (pointee z v))
  | .arr n z ps, v => .arr ((List.range n).map fun i => (ps i).apply (element z v i))
  | .map m, v => .map fun k => (m k).or (entries v k)
  | .struct ps, v =>
    match v with
    | .struct vs => .struct (vs.mapIdx fun i x => (ps i).apply x)
    | v => v

/-- First `p`, then `q`. -/
def Patch.comp (p q : Patch F) : Patch F :=
  match p with
  | .keep => q
  | .const v => match q with
    | .const w => .const w
    | q => .const (q.apply v)
  | .ptr y p => match q with
    | .keep => .ptr y p
    | .ptr z q => .ptr z (p.comp q)
    | q => q
  | .arr m y ps => match q with
    | .keep => .arr m y ps
    | .arr n z qs => .arr n z fun i => (ps i).comp (qs i)
    | q => q
  | .map m => match q with
    | .keep => .map m
    | .map m' => .map fun k => (m' k).or (m k)
    | q => q
  | .struct ps => match q with
    | .keep => .struct ps
    | .struct qs => .struct fun i => (ps i).comp (qs i)
    | q => q

theorem Patch.comp_keep (p : Patch F) : p.comp .keep = p := by cases p <;> rfl

theorem option_or_self {A : Type} (x : Option A) : x.or x = x := by cases x <;> rfl

theorem Patch.comp_self (p : Patch F) : p.comp p = p := by
  induction p with
  | keep => rfl
  | const v => rfl
  | ptr z p ih => simp [comp, ih]
  | arr n z ps ih => simp [comp, ih]
  | map m => simp [comp]
  | struct ps ih => simp [comp, ih]

/-- A change that is made later anyway need not be made before. -/
theorem Patch.absorb (p q : Patch F) : p.comp (q.comp p) = q.comp p := by
  induction p generalizing q with
  | keep => cases q <;> rfl
  | const v => cases q <;> rfl
  | ptr z p ih =>
    cases q with
    | ptr z' q => simp [comp, ih]
    | keep => exact comp_self _
    | const w => rfl
    | _ => simp [comp, comp_self]
  | arr n z ps ih =>
    cases q with
    | arr n' z' qs => simp [comp, ih]
    | keep => exact comp_self _
    | const w => rfl
    | _ => simp [comp, comp_self]
  | map m =>
    cases q with
    | map m' =>
      simp only [comp, Patch.map.injEq]
      funext k
      cases m k <;> simp
    | keep => exact comp_self _
    | const w => rfl
    | _ => simp [comp]
  | struct ps ih =>
    cases q with
    | struct qs => simp [comp, ih]
    | keep => exact comp_self _
    | const w => rfl
    | _ => simp [comp, comp_self]

variable {Γ : TyEnv F} {cfg : DecCfg F} {L : Nat → List Ty}

/-- The changes of variables of a type. -/
inductive PatchTy (Γ : TyEnv F) (cfg : DecCfg F) (L : Nat → List Ty) : Ty → Patch F → Prop
  | keep (T : Ty) : PatchTy Γ cfg L T .keep
  | const (T : Ty) (v : Val F) : PatchTy Γ cfg L T (.const v)
  | ptr (T : Ty) (p : Patch F) (h : PatchTy Γ cfg L T p) : PatchTy Γ cfg L (.ptr T) (.ptr (Γ.zero cfg T) p)
  | arr (T E : Ty) (n : Nat) (ps : Nat → Patch F) (hT : Is Γ T (.array n E)) (h : ∀ i, PatchTy Γ cfg L E (ps i)) :
      PatchTy Γ cfg L T (.arr n (Γ.zero cfg E) ps)
  | map (T E : Ty) (K : KeyTy) (m : Key → Option (Val F)) (hT : Is Γ T (.map K E)) : PatchTy Γ cfg L T (.map m)
  | struct (i : Nat) (fs : List Field) (ps : Nat → Patch F) (hd : Γ.defn i = .struct fs)
      (h : ∀ k T, (L i)[k]? = some T → PatchTy Γ cfg L T (ps k)) (h' : ∀ k, (L i)[k]? = none → ps k = .keep) :
      PatchTy Γ cfg L (.named i) (.struct ps)

theorem PatchTy.comp {T : Ty} {p q : Patch F} (hp : PatchTy Γ cfg L T p) (hq : PatchTy Γ cfg L T q) : PatchTy Γ cfg L T (p.comp q) := by
  induction hp generalizing q with
  | keep T => exact hq
  | const T v => cases q <;> exact .const _ _
  | ptr T p h ih =>
    cases hq with
    | keep => exact .ptr _ _ h
    | const _ v => exact .const _ _
    | ptr _ q hq => exact .ptr _ _ (ih hq)
    | arr E _ n qs hT hq => cases hT
    | map E K _ m hT => cases hT
  | arr T E n ps hT h ih =>
    cases hq with
    | keep => exact .arr _ _ _ _ hT h
    | const _ v => exact .const _ _
    | ptr _ q hq => cases hT
    | arr _ E' n' qs hT' hq =>
      obtain ⟨rfl, rfl⟩ := is_array_inj hT hT'
      exact .arr _ _ _ _ hT fun i => ih i (hq i)
    | map E' K _ m hT' => exact .map _ _ _ _ hT'
    | struct i fs qs hd hq hq' => exact .struct _ _ _ hd hq hq'
  | map T E K m hT =>
    cases hq with
    | keep => exact .map _ _ _ _ hT
    | const _ v => exact .const _ _
    | ptr _ q hq => cases hT
    | arr _ E' n' qs hT' hq => exact .arr _ _ _ _ hT' hq
    | map E' K _ m hT' => exact .map _ _ _ _ hT
    | struct i fs qs hd hq hq' => exact .struct _ _ _ hd hq hq'
  | struct i fs ps hd h h' ih =>
    cases hq with
    | keep => exact .struct _ _ _ hd h h'
    | const _ v => exact .const _ _
    | arr _ E' n' qs hT' hq => exact .arr _ _ _ _ hT' hq
    | map E' K _ m hT' => exact .map _ _ _ _ hT'
    | struct _ fs qs hd hq hq' =>
      refine .struct _ _ _ hd (fun k T hk => ih k T hk (hq k T hk)) fun k hk => ?_
      rw [h' k hk, hq' k hk]
      rfl

theorem element_range {n : Nat} {z : Val F} {f : Nat → Val F} {i : Nat} (hi : i < n) :
    element z (.arr ((List.range n).map f)) i = f i := by
  simp [element, hi]

theorem PatchTy.apply_comp {T : Ty} {p q : Patch F} (hp : PatchTy Γ cfg L T p) (hq : PatchTy Γ cfg L T q) (v : Val F) :
    (p.comp q).apply v = q.apply (p.apply v) := by
  induction hp generalizing q v with
  | keep T => rfl
  | const T c => cases q <;> rfl
  | ptr T p h ih =>
    cases hq with
    | keep => rfl
    | const _ v => rfl
    | ptr _ q hq => simp only [Patch.comp, Patch.apply, pointee, ih hq]
    | arr E _ n qs hT hq => cases hT
    | map E K _ m hT => cases hT
  | arr T E n ps hT h ih =>
    cases hq with
    | keep => rfl
    | const _ v => rfl
    | ptr _ q hq => cases hT
    | arr _ E' n' qs hT' hq =>
      obtain ⟨rfl, rfl⟩ := is_array_inj hT hT'
      simp only [Patch.comp, Patch.apply, Val.arr.injEq]
      refine List.map_congr_left fun i hi => ?_
      rw [element_range (List.mem_range.mp hi), ih i (hq i)]
    | map E' K _ m hT' =>
      cases hT with
      | array => cases hT'
      | named i _ hd => cases hT' with
        | named _ _ hd' => rw [hd] at hd'; cases hd'
    | struct i fs qs hd hq hq' =>
      cases hT with
      | named _ _ hd' => rw [hd] at hd'; cases hd'
  | map T E K m hT =>
    cases hq with
    | keep => rfl
    | const _ v => rfl
    | ptr _ q hq => cases hT
    | arr _ E' n' qs hT' hq =>
      cases hT with
      | map => cases hT'
      | named i _ hd => cases hT' with
        | named _ _ hd' => rw [hd] at hd'; cases hd'
    | map E' K _ m' hT' =>
      simp only [Patch.comp, Patch.apply, Val.map.injEq, entries]
      funext k
      exact Option.or_assoc
    | struct i fs qs hd hq hq' =>
      cases hT with
      | named _ _ hd' => rw [hd] at hd'; cases hd'
  | struct i fs ps hd h h' ih =>
    cases hq with
    | keep => rfl
    | const _ v => rfl
    | arr _ E' n' qs hT' hq =>
      cases hT' with
      | named _ _ hd' => rw [hd] at hd'; cases hd'
    | map E' K _ m hT' =>
      cases hT' with
      | named _ _ hd' => rw [hd] at hd'; cases hd'
    | struct _ fs qs hd hq hq' =>
      cases v with
      | struct vs =>
        simp only [Patch.comp, Patch.apply, Val.struct.injEq, List.mapIdx_mapIdx]
        congr 1
        funext k x
        cases hk : (L i)[k]? with
        | none => rw [h' k hk, hq' k hk]; rfl
        | some T => exact ih k T hk (hq k T hk) x
      | _ => rfl

variable {sel : List (List Byte) → List Byte → Nat → Prop}

/-- The new value is determined by the old value and the text. -/
theorem decodesO_functional (hl : DecLaws Γ cfg sel) {T : Ty} {o : DecOpts} {a v v' : Val F} {t : List Byte}
    (h : DecodesO Γ cfg true sel T o a t v) (h' : DecodesO Γ cfg true sel T o a t v') : v = v' := by
  have hi := decoderOf_impl (env := ⟨.eof, 0⟩) hl ⟨⟨[], 0⟩, ⟨[], 0, 0, false, none⟩⟩ (t.length + 1) T o a
  have hs : Split (Env.endErr ⟨.eof, 0⟩) t t [] := ⟨[], by simp [Ws], by simp, endsAt_end (by simp [Ws])⟩
  have h1 := hi.complete ((decodesO_iff (Nat.lt_succ_self _)).mp h) hs
  have h2 := hi.complete ((decodesO_iff (Nat.lt_succ_self _)).mp h') hs
  have h3 := h1.symm.trans h2
  simp at h3
  exact h3

theorem decodesO_solid {T : Ty} {o : DecOpts} {a v : Val F} {t : List Byte} (h : DecodesO Γ cfg true sel T o a t v) : Solid t := by
  obtain ⟨n, h⟩ := h
  exact Solid.lax (nk := true) (sp := true) (decodesN_lax (P := fun _ => True) closed_all (by simp) (by simp) trivial (by simp) h)

/-- Whenever the text is accepted, it leaves the variable alone, or the new value has nothing to do with the old one. -/
def Blunt (R : Rel F) : Prop := ∀ o a t v, R o a t v → (v = a ∧ ∀ a', R o a' t a') ∨ ∀ a', R o a' t v

theorem patch_of_blunt {T : Ty} {R : Rel F} (hf : ∀ o a t v v', R o a t v → R o a t v' → v = v') (hb : Blunt R) (o : DecOpts) (t : List Byte) :
    ∃ p, PatchTy Γ cfg L T p ∧ ∀ a v, R o a t v → v = p.apply a := by
  by_cases hc : ∃ v, ∀ a, R o a t v
  · obtain ⟨c, hc⟩ := hc
    exact ⟨.const c, .const _ _, fun a v h => hf o a t v c h (hc a)⟩
  · refine ⟨.keep, .keep _, fun a v h => ?_⟩
    rcases hb o a t v h with ⟨rfl, _⟩ | h
    · rfl
    · exact absurd ⟨v, h⟩ hc

theorem boolLit_blunt {a v : Val F} {u : List Byte} (h : BoolLit a u v) : (v = a ∧ ∀ a' : Val F, BoolLit a' u a') ∨ ∀ a' : Val F, BoolLit a' u v := by
  rcases h with ⟨h, rfl⟩ | ⟨h, rfl⟩ | ⟨h, rfl⟩
  · exact .inl ⟨rfl, fun _ => .inl ⟨h, rfl⟩⟩
  · exact .inr fun _ => .inr (.inl ⟨h, rfl⟩)
  · exact .inr fun _ => .inr (.inr ⟨h, rfl⟩)

theorem boolRel_blunt {lax : Bool} : Blunt (BoolRel (F := F) lax) := by
  rintro o a t v (h | ⟨hq, w, u, hw, ht, h⟩)
  · rcases boolLit_blunt h with ⟨hv, h⟩ | h
    · exact .inl ⟨hv, fun a' => .inl (h a')⟩
    · exact .inr fun a' => .inl (h a')
  · rcases boolLit_blunt h with ⟨hv, h⟩ | h
    · exact .inl ⟨hv, fun a' => .inr ⟨hq, w, u, hw, ht, h a'⟩⟩
    · exact .inr fun a' => .inr ⟨hq, w, u, hw, ht, h a'⟩

theorem strRel_blunt : Blunt (StrRel (F := F)) := by
  rintro o a t v (⟨h, rfl⟩ | ⟨s, hs, h⟩)
  · exact .inl ⟨rfl, fun a' => .inl ⟨h, rfl⟩⟩
  · cases hq : o.quoted with
    | false =>
      simp only [hq, Bool.false_eq_true, if_false] at h
      exact .inr fun a' => .inr ⟨s, hs, by simp [hq, h]⟩
    | true =>
      simp only [hq, if_true] at h
      rcases h with ⟨h, rfl⟩ | ⟨s', h, rfl⟩
      · exact .inl ⟨rfl, fun a' => .inr ⟨s, hs, by simp [hq, h]⟩⟩
      · exact .inr fun a' => .inr ⟨s, hs, by simp only [hq, if_true]; exact .inr ⟨s', h, rfl⟩⟩

theorem intRel_blunt {lit : List Byte → Int → Prop} : Blunt (IntRel (F := F) lit) := by
  rintro o a t v (⟨h, rfl⟩ | ⟨u, z, h1, h2, h3⟩)
  · exact .inl ⟨rfl, fun a' => .inl ⟨h, rfl⟩⟩
  · exact .inr fun a' => .inr ⟨u, z, h1, h2, h3⟩

theorem floatRel_blunt {ops : FloatOps F} : Blunt (FloatRel ops) := by
  rintro o a t v (⟨h, rfl⟩ | h)
  · exact .inl ⟨rfl, fun a' => .inl ⟨h, rfl⟩⟩
  · exact .inr fun a' => .inr h

theorem numberRel_blunt : Blunt (NumberRel (F := F)) := by
  rintro o a t v (⟨h, rfl⟩ | h)
  · exact .inl ⟨rfl, fun a' => .inl ⟨h, rfl⟩⟩
  · exact .inr fun a' => .inr h

theorem jsonRel_blunt {f : Val F → List Byte → Except Err (Val F)} (hf : Overwrites f) : Blunt (JsonRel f) := by
  rintro o a t v ⟨hv, h⟩
  rcases hf t with ⟨r, hr⟩ | hk
  · exact .inr fun a' => ⟨hv, by rw [hr] at h ⊢; exact h⟩
  · rw [hk] at h
    cases h
    exact .inl ⟨rfl, fun a' => ⟨hv, hk a'⟩⟩

theorem textRel_blunt {f : Val F → List Byte → Except Err (Val F)} (hf : Overwrites f) : Blunt (TextRel f) := by
  rintro o a t v (⟨h, rfl⟩ | ⟨s, hs, h⟩)
  · exact .inl ⟨rfl, fun a' => .inl ⟨h, rfl⟩⟩
  · rcases hf s with ⟨r, hr⟩ | hk
    · exact .inr fun a' => .inr ⟨s, hs, by rw [hr] at h ⊢; exact h⟩
    · rw [hk] at h
      cases h
      exact .inl ⟨rfl, fun a' => .inr ⟨s, hs, hk a'⟩⟩

/-- The change of the place at the end of a path. -/
def Patch.atPath (zero : Ty → Val F) (p : Patch F) : List PathStep → Patch F
  | [] => p
  | .member i :: path => .struct fun k => if k = i then p.atPath zero path else .keep
  | .deref _ T :: path => .ptr (zero T) (p.atPath zero path)

theorem PatchTy.atPath {T U : Ty} {path : List PathStep} (h : PathTy Γ L T path U) {p : Patch F} (hp : PatchTy Γ cfg L U p) :
    PatchTy Γ cfg L T (p.atPath (Γ.zero cfg) path) := by
  induction h with
  | here T => exact hp
  | member i k fs T T' path hd hk h ih =>
    refine .struct i fs _ hd (fun j T1 hj => ?_) fun j hj => ?_
    · by_cases hjk : j = k
      · subst hjk
        rw [hk] at hj
        cases hj
        simp only [if_true]
        exact ih hp
      · simp only [hjk, if_false]
        exact .keep _
    · by_cases hjk : j = k
      · subst hjk
        rw [hk] at hj
        cases hj
      · simp [hjk]
  | deref e T T' path h ih => exact .ptr _ _ (ih hp)

theorem atPath_apply {zero : Ty → Val F} {G : Val F → Val F → Prop} {p : Patch F} (hG : ∀ a b, G a b → b = p.apply a)
    {path : List PathStep} {s s' : Val F} (h : AtPath zero G path s s') : s' = (p.atPath zero path).apply s := by
  induction h with
  | here a b h => exact hG a b h
  | member i path vs a b hi h ih =>
    simp only [Patch.atPath, Patch.apply, Val.struct.injEq]
    refine List.ext_getElem? fun k => ?_
    rw [List.getElem?_mapIdx]
    by_cases hk : k = i
    · subst hk
      have hlt : k < vs.length := (List.getElem?_eq_some_iff.mp hi).1
      rw [List.getElem?_set_self hlt, hi]
      simp [ih]
    · rw [List.getElem?_set_ne (Ne.symm hk)]
      cases hv : vs[k]? with
      | none => rfl
      | some x => simp [hk, Patch.apply]
  | deref e T path a b h ih => simp only [Patch.atPath, Patch.apply, pointee, ih]
  | alloc T path b h ih => simp only [Patch.atPath, Patch.apply, pointee, ih]

theorem visits_patch {T : Ty} {X : Type} {G : Val F → X → Val F → Prop} {xs : List X}
    (h : ∀ x ∈ xs, ∃ p, PatchTy Γ cfg L T p ∧ ∀ s s', G s x s' → s' = p.apply s) :
    ∃ p, PatchTy Γ cfg L T p ∧ ∀ s s', Visits G s xs s' → s' = p.apply s := by
  induction xs with
  | nil => exact ⟨.keep, .keep _, fun s s' h => by cases h; rfl⟩
  | cons x xs ih =>
    obtain ⟨p, hp, h1⟩ := h x (by simp)
    obtain ⟨q, hq, h2⟩ := ih fun x hx => h x (by simp [hx])
    refine ⟨p.comp q, hp.comp hq, fun s s' h => ?_⟩
    cases h with
    | cons ha hb => rw [hp.apply_comp hq, ← h1 _ _ ha, ← h2 _ _ hb]

theorem putAll_none {m : Key → Option (Val F)} {xs : List (Key × Val F)} :
    putAll m xs = fun k => (putAll (fun _ => none) xs k).or (m k) := by
  funext k
  unfold putAll
  cases xs.reverse.find? fun x => x.1 == k <;> simp

theorem memberRel_str {strict : Bool} {zero : Ty → Val F} {sl : List Byte → Nat → Prop} {fs : List Field} {R : Ty → Rel F}
    (hR : ∀ U o a t v, R U o a t v → Solid t) {s s' : Val F} {m : List Byte × List Byte} (h : MemberRel strict zero sl fs R s m s') :
    Solid m.1 ∧ Solid m.2 := by
  obtain ⟨key, hk, ⟨i, f, _, _, h⟩ | ⟨_, _, h, _⟩⟩ := h
  · obtain ⟨a, b, h4, _⟩ := atPath_leaf h
    exact ⟨.str hk, hR _ _ _ _ _ h4⟩
  · exact ⟨.str hk, .value h.choose_spec⟩

/-- For each type and text there is a patch. -/
theorem patch_exists (hl : DecLaws Γ cfg sel) (hD : Declared Γ L) (hM : MethodsOverwrite Γ) (n : Nat) (T : Ty) (o : DecOpts) (t : List Byte)
    (hn : t.length < n) : ∃ p, PatchTy Γ cfg L T p ∧ ∀ a v, DecodesO Γ cfg true sel T o a t v → v = p.apply a := by
  induction n generalizing T o t with
  | zero => omega
  | succ n ihn =>
    have blunt : ∀ {T : Ty} {R : Rel F}, Blunt R → (∀ o a t v, DecodesO Γ cfg true sel T o a t v ↔ R o a t v) → ∀ o t,
        ∃ p, PatchTy Γ cfg L T p ∧ ∀ a v, DecodesO Γ cfg true sel T o a t v → v = p.apply a := by
      intro T R hb hR o t
      obtain ⟨p, hp, h⟩ := patch_of_blunt (Γ := Γ) (cfg := cfg) (L := L) (T := T)
        (fun o a t v v' h h' => decodesO_functional hl ((hR o a t v).mpr h) ((hR o a t v').mpr h')) hb o t
      exact ⟨p, hp, fun a v h' => h a v ((hR o a t v).mp h')⟩
    have slice : ∀ {T E : Ty}, Is Γ T (.slice E) → ∀ o t,
        ∃ p, PatchTy Γ cfg L T p ∧ ∀ a v, DecodesO Γ cfg true sel T o a t v → v = p.apply a := by
      intro T E hT o t
      refine blunt (R := SliceRel cfg.base64 (E == .uint .w8) (Γ.zero cfg E) (DecodesO Γ cfg true sel E)) ?_
        (fun o a t v => decodesO_slice hT) o t
      exact fun o a t v h => .inr fun _ => h
    have array : ∀ {T E : Ty} {k : Nat}, Is Γ T (.array k E) → ∀ o t, t.length < n + 1 →
        ∃ p, PatchTy Γ cfg L T p ∧ ∀ a v, DecodesO Γ cfg true sel T o a t v → v = p.apply a := by
      intro T E k hT o t hn
      by_cases hnull : t = nullText
      · refine ⟨.keep, .keep _, fun a v h => ?_⟩
        rcases (decodesO_array hT).mp h with ⟨_, rfl⟩ | ⟨ts, vs, ht, _⟩
        · rfl
        · obtain ⟨u, hu⟩ := enclosed_head ht
          rw [hnull] at hu
          cases hu
      by_cases hex : ∃ ts, ArrayOf t ts ∧ ∀ u ∈ ts, Solid u
      · obtain ⟨ts, hts, hsol⟩ := hex
        have hlen := enclosed_length hts
        have hq : ∀ i, ∃ p, PatchTy Γ cfg L E p ∧
            (∀ u, ts[i]? = some u → ∀ a v, DecodesO Γ cfg true sel E {} a u v → v = p.apply a) ∧
            (ts.length ≤ i → p = .const (Γ.zero cfg E)) := by
          intro i
          cases hi : ts[i]? with
          | none => exact ⟨.const (Γ.zero cfg E), .const _ _, by simp, fun _ => rfl⟩
          | some u =>
            obtain ⟨p, hp, h⟩ := ihn E {} u (by have := hlen u (List.mem_of_getElem? hi); omega)
            refine ⟨p, hp, fun u' hu' => by cases hu'; exact h, fun hle => ?_⟩
            have := (List.getElem?_eq_some_iff.mp hi).1
            omega
        refine ⟨.arr k (Γ.zero cfg E) fun i => (hq i).choose, .arr _ _ _ _ hT fun i => (hq i).choose_spec.1, fun a v h => ?_⟩
        rcases (decodesO_array hT).mp h with ⟨h, _⟩ | ⟨ts', vs, ht, rfl, hvs, h1, h2, h3⟩
        · exact absurd h hnull
        · have hsol' : ∀ u ∈ ts', Solid u := by
            intro u hu
            obtain ⟨i, hi⟩ := List.getElem?_of_mem hu
            by_cases hlt : k ≤ i
            · exact .value (h1 i u hi hlt).choose_spec
            · exact decodesO_solid (h2 i u _ hi (List.getElem?_eq_getElem (by omega)))
          obtain rfl := arrayOf_same hts ht hsol hsol'
          simp only [Patch.apply, Val.arr.injEq]
          refine List.ext_getElem? fun i => ?_
          by_cases hik : i < k
          · have hv : vs[i]? = some (vs[i]'(by omega)) := List.getElem?_eq_getElem (by omega)
            rw [hv, List.getElem?_map, List.getElem?_range hik]
            simp only [Option.map_some, Option.some.injEq]
            by_cases hle : ts.length ≤ i
            · rw [(hq i).choose_spec.2.2 hle]
              exact h3 i _ hle hv
            · have hu : ts[i]? = some (ts[i]'(by omega)) := List.getElem?_eq_getElem (by omega)
              exact (hq i).choose_spec.2.1 _ hu _ _ (h2 i _ _ hu hv)
          · rw [List.getElem?_eq_none (by omega), List.getElem?_eq_none (by simp; omega)]
      · refine ⟨.keep, .keep _, fun a v h => ?_⟩
        rcases (decodesO_array hT).mp h with ⟨h, _⟩ | ⟨ts', vs, ht, rfl, hvs, h1, h2, h3⟩
        · exact absurd h hnull
        · refine absurd ⟨ts', ht, fun u hu => ?_⟩ hex
          obtain ⟨i, hi⟩ := List.getElem?_of_mem hu
          by_cases hlt : k ≤ i
          · exact .value (h1 i u hi hlt).choose_spec
          · exact decodesO_solid (h2 i u _ hi (List.getElem?_eq_getElem (by omega)))
    have map : ∀ {T E : Ty} {K : KeyTy}, Is Γ T (.map K E) → ∀ o t,
        ∃ p, PatchTy Γ cfg L T p ∧ ∀ a v, DecodesO Γ cfg true sel T o a t v → v = p.apply a := by
      intro T E K hT o t
      by_cases hex : ∃ v, DecodesO Γ cfg true sel T o .nilMap t v
      · obtain ⟨c, hc⟩ := hex
        have hc' := (decodesO_map hT).mp hc
        have case : ∀ a v, DecodesO Γ cfg true sel T o a t v → (v = .nilMap ∧ c = .nilMap) ∨
            ∃ xs : List (Key × Val F), v = .map (putAll (entries a) xs) ∧ c = .map (putAll (fun _ => none) xs) := by
          intro a v h
          rcases (decodesO_map hT).mp h with ⟨h1, h2⟩ | ⟨ms, xs, h1, h2, h3⟩
          · exact .inl ⟨h2, decodesO_functional hl hc ((decodesO_map hT).mpr (.inl ⟨h1, rfl⟩))⟩
          · exact .inr ⟨xs, h3, decodesO_functional hl hc ((decodesO_map hT).mpr (.inr ⟨ms, xs, h1, h2, rfl⟩))⟩
        rcases hc' with ⟨_, rfl⟩ | ⟨ms, xs, _, _, rfl⟩
        · refine ⟨.const .nilMap, .const _ _, fun a v h => ?_⟩
          rcases case a v h with ⟨rfl, _⟩ | ⟨xs, _, h⟩
          · rfl
          · cases h
        · refine ⟨.map (putAll (fun _ => none) xs), .map _ _ _ _ hT, fun a v h => ?_⟩
          rcases case a v h with ⟨_, hy⟩ | ⟨ys, rfl, hy⟩
          · cases hy
          · have hy' := Val.map.inj hy
            simp only [Patch.apply, Val.map.injEq]
            rw [putAll_none, ← hy']
            rfl
      · refine ⟨.keep, .keep _, fun a v h => absurd ?_ hex⟩
        rcases (decodesO_map hT).mp h with ⟨h1, h2⟩ | ⟨ms, xs, h1, h2, h3⟩
        · exact ⟨_, (decodesO_map hT).mpr (.inl ⟨h1, rfl⟩)⟩
        · exact ⟨_, (decodesO_map hT).mpr (.inr ⟨ms, xs, h1, h2, rfl⟩)⟩
    have struct : ∀ {i : Nat} {fs : List Field}, Γ.defn i = .struct fs → ∀ o t, t.length < n + 1 →
        ∃ p, PatchTy Γ cfg L (.named i) p ∧ ∀ a v, DecodesO Γ cfg true sel (.named i) o a t v → v = p.apply a := by
      intro i fs hd o t hn
      by_cases hnull : t = nullText
      · refine ⟨.keep, .keep _, fun a v h => ?_⟩
        rcases (decodesO_struct hd).mp h with ⟨_, rfl⟩ | ⟨ms, ht, _⟩
        · rfl
        · obtain ⟨u, hu⟩ := object_head ht
          rw [hnull] at hu
          cases hu
      have sol : ∀ {ms a v}, Visits (MemberRel cfg.disallowUnknownFields (Γ.zero cfg) (sel (fs.map Field.name)) fs (DecodesO Γ cfg true sel))
          a ms v → ∀ m ∈ ms, Solid m.1 ∧ Solid m.2 := by
        intro ms a v h m hm
        obtain ⟨_, _, h⟩ := visits_mem h hm
        exact memberRel_str (fun _ _ _ _ _ h => decodesO_solid h) h
      by_cases hex : ∃ ms, ObjectOf t ms ∧ ∀ m ∈ ms, Solid m.1 ∧ Solid m.2
      · obtain ⟨ms, hms, hsol⟩ := hex
        have hlen := objectOf_length hms
        obtain ⟨p, hp, h⟩ := visits_patch (Γ := Γ) (cfg := cfg) (L := L) (T := .named i) (xs := ms)
          (G := MemberRel cfg.disallowUnknownFields (Γ.zero cfg) (sel (fs.map Field.name)) fs (DecodesO Γ cfg true sel)) (by
            intro m hm
            by_cases hkey : ∃ key, Str m.1 key
            · obtain ⟨key, hkey⟩ := hkey
              obtain ⟨x, _, hx⟩ := hl.finds i fs hd key
              by_cases hf : ∃ j f, sel (fs.map Field.name) key j ∧ fs[j]? = some f
              · obtain ⟨j, f, hj, hf⟩ := hf
                obtain ⟨p, hp, h⟩ := ihn f.ty { quoted := f.quoted } m.2 (by have := hlen m hm; omega)
                refine ⟨p.atPath (Γ.zero cfg) f.path, .atPath (hD.fields i fs f hd (List.mem_of_getElem? hf)) hp, ?_⟩
                rintro s s' ⟨key', hkey', h'⟩
                obtain rfl := Props.C13_denotation_unique hkey hkey'
                rcases h' with ⟨j', f', hj', hf', h'⟩ | ⟨h', _⟩
                · have h1 := (hx j).mp hj
                  rw [(hx j').mp hj'] at h1
                  cases h1
                  rw [hf] at hf'
                  cases hf'
                  exact atPath_apply h h'
                · exact absurd hj (h' j)
              · refine ⟨.keep, .keep _, ?_⟩
                rintro s s' ⟨key', hkey', h'⟩
                obtain rfl := Props.C13_denotation_unique hkey hkey'
                rcases h' with ⟨j', f', hj', hf', h'⟩ | ⟨_, _, _, h'⟩
                · exact absurd ⟨j', f', hj', hf'⟩ hf
                · exact h'
            · refine ⟨.keep, .keep _, ?_⟩
              rintro s s' ⟨key', hkey', _⟩
              exact absurd ⟨key', hkey'⟩ hkey)
        refine ⟨p, hp, fun a v h' => ?_⟩
        rcases (decodesO_struct hd).mp h' with ⟨h', _⟩ | ⟨ms', ht, h'⟩
        · exact absurd h' hnull
        · obtain rfl := objectOf_same hms ht hsol (sol h')
          exact h _ _ h'
      · refine ⟨.keep, .keep _, fun a v h => ?_⟩
        rcases (decodesO_struct hd).mp h with ⟨h, _⟩ | ⟨ms', ht, h⟩
        · exact absurd h hnull
        · exact absurd ⟨ms', ht, sol h⟩ hex
    have simple : ∀ {T : Ty} {R : Rel F}, (∀ k, DecodesN Γ cfg true sel k T = R) → ∀ o a t v, DecodesO Γ cfg true sel T o a t v ↔ R o a t v := by
      intro T R h o a t v
      exact ⟨fun ⟨k, hk⟩ => h k ▸ hk, fun h' => ⟨0, by rw [h]; exact h'⟩⟩
    induction T generalizing o t with
    | bool => exact blunt (boolRel_blunt (lax := true)) (simple fun k => by cases k <;> simp only [DecodesN]) o t
    | str => exact blunt strRel_blunt (simple fun k => by cases k <;> simp only [DecodesN]) o t
    | int w => exact blunt (intRel_blunt (lit := IntLit w.bits)) (simple fun k => by cases k <;> simp only [DecodesN]) o t
    | uint w => exact blunt (intRel_blunt (lit := UintLit w.bits)) (simple fun k => by cases k <;> simp only [DecodesN]) o t
    | float32 => exact blunt (floatRel_blunt (ops := cfg.ops32)) (simple fun k => by cases k <;> simp only [DecodesN]) o t
    | float64 => exact blunt (floatRel_blunt (ops := cfg.ops64)) (simple fun k => by cases k <;> simp only [DecodesN]) o t
    | number => exact blunt numberRel_blunt (simple fun k => by cases k <;> simp only [DecodesN]) o t
    | raw => exact blunt (R := RawRel) (fun _ _ _ _ h => .inr fun _ => h) (simple fun k => by cases k <;> simp only [DecodesN]) o t
    | any => exact blunt (R := AnyRel cfg) (fun _ _ _ _ h => .inr fun _ => h) (simple fun k => by cases k <;> simp only [DecodesN]) o t
    | ptr T ih =>
      obtain ⟨p, hp, h⟩ := ih o t hn
      by_cases hnull : t = nullText
      · refine ⟨.const .nilPtr, .const _ _, fun a v h' => ?_⟩
        rcases decodesO_ptr.mp h' with ⟨_, rfl⟩ | ⟨h', _⟩
        · rfl
        · exact absurd hnull h'
      · refine ⟨.ptr (Γ.zero cfg T) p, .ptr _ _ hp, fun a v h' => ?_⟩
        rcases decodesO_ptr.mp h' with ⟨h', _⟩ | ⟨_, x, hx, rfl⟩
        · exact absurd h' hnull
        · simp only [Patch.apply, Val.ptr.injEq]
          exact h _ _ hx
    | slice T ih => exact slice (.slice T) o t
    | array k T ih => exact array (.array k T) o t hn
    | map K T ih => exact map (.map K T) o t
    | named i =>
      cases hd : Γ.defn i with
      | slice T => exact slice (.named i _ hd) o t
      | array k T => exact array (.named i _ hd) o t hn
      | map K T => exact map (.named i _ hd) o t
      | struct fs => exact struct hd o t hn
    | jsonUnmarshaler i => exact blunt (jsonRel_blunt (hM.json i)) (simple fun k => by cases k <;> simp only [DecodesN]) o t
    | textUnmarshaler i => exact blunt (textRel_blunt (hM.text i)) (simple fun k => by cases k <;> simp only [DecodesN]) o t
    | unsupported =>
      refine ⟨.keep, .keep _, ?_⟩
      rintro a v ⟨k, h⟩
      cases k <;> simp only [DecodesN] at h

end

end Jzon
