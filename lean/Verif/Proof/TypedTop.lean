import Verif.Proof.TypedMain
import Verif.Props.Fold

/-!
# Typed decoding: `Unmarshal`
-/

set_option linter.unusedSimpArgs false

namespace Jzon

open Spec

section
variable {F : Type} {Γ : TyEnv F} {cfg : DecCfg F} {same : Nat → Nat → Prop}

/-- What is assumed about the parameters: the float functions and the case folding tables obey their laws, and no struct
has two fields with the same name. -/
structure TypeLaws (Γ : TyEnv F) (cfg : DecCfg F) (same : Nat → Nat → Prop) : Prop where
  law32 : Lawful cfg.ops32
  law64 : Lawful cfg.ops64
  fold : FoldLaws cfg.fold same
  names : ∀ i fs, Γ.defn i = .struct fs → (fs.map Field.name).Nodup

theorem TypeLaws.decLaws (h : TypeLaws Γ cfg same) : DecLaws Γ cfg (SelectsHere same cfg.caseSensitive) where
  law32 := h.law32
  law64 := h.law64
  finds i fs hd key := by
    obtain ⟨o, h1, h2⟩ := Props.C27_find_exact h.fold (h.names i fs hd) key cfg.caseSensitive
    exact ⟨o, h1, fun i => (h2 i).symm⟩

/-- The relation of a type in this library. -/
abbrev DecodesHere (Γ : TyEnv F) (cfg : DecCfg F) (same : Nat → Nat → Prop) : Ty → Val F → List Byte → Val F → Prop :=
  Decodes Γ cfg true (SelectsHere same cfg.caseSensitive)

theorem runs_unmarshal (hl : TypeLaws Γ cfg same) {pools : Pools} {env : Env} {T : Ty} {old v : Val F} {l r : List Byte} :
    Runs (unmarshalProg Γ cfg pools T old) env l v r ↔
      r = [] ∧ env.endErr = .eof ∧ ∃ w t w2, Ws w ∧ Ws w2 ∧ l = w ++ (t ++ w2) ∧ DecodesHere Γ cfg same T old t v := by
  unfold unmarshalProg
  simp only [runs_bind, runs_tokenEOF]
  have hi := readVal_impl (env := env) hl.decLaws pools T old
  constructor
  · rintro ⟨x, l1, h1, o, l2, h2, h3⟩
    obtain ⟨w, t, hw, rfl, ht⟩ := hi.sound h1
    rcases h2 with ⟨rfl, rfl, he, hw2⟩ | ⟨c, w', l', rfl, _⟩
    · simp only [runs_pure] at h3
      obtain ⟨rfl, rfl⟩ := h3
      exact ⟨rfl, he, w, t, l1, hw, hw2, rfl, ht⟩
    · simp at h3
  · rintro ⟨rfl, he, w, t, w2, hw, hw2, rfl, ht⟩
    refine ⟨v, w2, hi.complete ht ⟨w, hw, rfl, he ▸ endsAt_end hw2⟩, none, [], .inl ⟨rfl, rfl, he, hw2⟩, by simp⟩

theorem unmarshal_iff (hl : TypeLaws Γ cfg same) (pools : Pools) (it : It) {data : List Byte} {T : Ty} {old v : Val F} :
    Unmarshal Γ cfg pools it data T old = .ok v ↔
      ∃ w t w2, Ws w ∧ Ws w2 ∧ data = w ++ (t ++ w2) ∧ DecodesHere Γ cfg same T old t v := by
  have hu := unread_bytes it data
  have he := env_endErr hu
  unfold Unmarshal
  constructor
  · intro h
    cases hm : (unmarshalProg Γ cfg pools T old).runM (it.resetBytes data) with
    | mk x it' =>
      rw [hm] at h
      simp only at h
      subst h
      obtain ⟨r, _, h2, _⟩ := runM_ok hu hm
      exact ((runs_unmarshal hl).mp h2).2.2
  · intro h
    obtain ⟨it', h1, _⟩ := runM_of_runs hu ((runs_unmarshal hl).mpr ⟨rfl, he, h⟩)
    rw [h1]

/-- Texts with white space around them. -/
def Trim {V : Type} (R : List Byte → V → Prop) (u : List Byte) (v : V) : Prop :=
  ∃ w t w2, Ws w ∧ Ws w2 ∧ u = w ++ (t ++ w2) ∧ R t v

theorem trim_self {V : Type} {R : List Byte → V → Prop} {u : List Byte} {v : V} (h : R u v) : Trim R u v :=
  ⟨[], u, [], ws_nil, ws_nil, by simp, h⟩

theorem items_trim {V : Type} {R : List Byte → V → Prop} {b : List Byte} {ts : List (List Byte)} {vs : List V} (hb : Items b ts)
    (he : Each (Trim R) ts vs) : ∃ ts', Items b ts' ∧ Each R ts' vs := by
  induction hb generalizing vs with
  | one w1 t w2 h1 h2 =>
    rcases he with _ | ⟨⟨w, u, w', hw, hw', rfl, h⟩, he⟩
    cases he
    have := Items.one (w1 ++ w) u (w' ++ w2) (ws_append h1 hw) (ws_append hw' h2)
    exact ⟨[u], by simpa using this, .cons h .nil⟩
  | cons w1 t w2 b ts h1 h2 hb ih =>
    rcases he with _ | ⟨⟨w, u, w', hw, hw', rfl, h⟩, he⟩
    obtain ⟨ts', h3, h4⟩ := ih he
    have := Items.cons (w1 ++ w) u (w' ++ w2) b ts' (ws_append h1 hw) (ws_append hw' h2) h3
    exact ⟨u :: ts', by simpa using this, .cons h h4⟩

theorem enclosed_trim {V : Type} {R : List Byte → V → Prop} {o c : Byte} {t : List Byte} {ts : List (List Byte)} {vs : List V}
    (hb : Enclosed o c t ts) (he : Each (Trim R) ts vs) : ∃ ts', Enclosed o c t ts' ∧ Each R ts' vs := by
  cases hb with
  | empty w hw => cases he; exact ⟨[], .empty w hw, .nil⟩
  | items b ts h =>
    obtain ⟨ts', h1, h2⟩ := items_trim h he
    exact ⟨ts', .items b ts' h1, h2⟩

theorem each_comp {A B C : Type} {P : A → B → Prop} {Q : B → C → Prop} {as : List A} {bs : List B} {cs : List C} (h1 : Each P as bs)
    (h2 : Each Q bs cs) : Each (fun a c => ∃ b, P a b ∧ Q b c) as cs := by
  induction h1 generalizing cs with
  | nil => cases h2; exact .nil
  | cons h _ ih =>
    rcases h2 with _ | ⟨h', h2⟩
    exact .cons ⟨_, h, h'⟩ (ih h2)

theorem each_split {A B C : Type} {P : A → B → Prop} {Q : B → C → Prop} {as : List A} {cs : List C}
    (h : Each (fun a c => ∃ b, P a b ∧ Q b c) as cs) : ∃ bs, Each P as bs ∧ Each Q bs cs := by
  induction h with
  | nil => exact ⟨[], .nil, .nil⟩
  | cons h _ ih =>
    obtain ⟨b, h1, h2⟩ := h
    obtain ⟨bs, h3, h4⟩ := ih
    exact ⟨b :: bs, .cons h1 h3, .cons h2 h4⟩

theorem each_of_get {A B : Type} {R : A → B → Prop} {as : List A} {bs : List B} (hlen : as.length = bs.length)
    (h : ∀ (i : Nat) a b, as[i]? = some a → bs[i]? = some b → R a b) : Each R as bs := by
  induction as generalizing bs with
  | nil => cases bs with
    | nil => exact .nil
    | cons b bs => simp at hlen
  | cons a as ih => cases bs with
    | nil => simp at hlen
    | cons b bs =>
      exact .cons (h 0 a b rfl rfl) (ih (by simpa using hlen) fun i a' b' ha hb => h (i + 1) a' b' (by simpa using ha) (by simpa using hb))

theorem each_length {A B : Type} {R : A → B → Prop} {as : List A} {bs : List B} (h : Each R as bs) : as.length = bs.length := by
  induction h with
  | nil => rfl
  | cons _ _ ih => simp [ih]

theorem each_get {A B : Type} {R : A → B → Prop} {as : List A} {bs : List B} (h : Each R as bs) {i : Nat} {a : A} {b : B}
    (ha : as[i]? = some a) (hb : bs[i]? = some b) : R a b := by
  induction h generalizing i with
  | nil => cases ha
  | cons h _ ih => cases i with
    | zero => cases ha; cases hb; exact h
    | succ i => exact ih (by simpa using ha) (by simpa using hb)

theorem object_trim {V : Type} {K : List Byte → V → Prop} {R : List Byte → V → Prop} {t : List Byte} {ms : List (List Byte × List Byte)}
    {vs : List V} (h : ObjectOf t ms) (he : Each (fun m v => K m.1 v ∧ Trim R m.2 v) ms vs) :
    ∃ ms', ObjectOf t ms' ∧ Each (fun m v => K m.1 v ∧ R m.2 v) ms' vs := by
  obtain ⟨ts, h1, h2⟩ := h
  have h3 : Each (Trim fun u v => ∃ m, MemberOf u m ∧ K m.1 v ∧ R m.2 v) ts vs := by
    refine each_mono ?_ (each_comp h2 he)
    rintro u - v ⟨⟨k, x⟩, ⟨w1, w2, hw1, hw2, rfl⟩, hk, w3, y, w4, hw3, hw4, rfl, hr⟩
    exact ⟨[], k ++ (w1 ++ 0x3A :: ((w2 ++ w3) ++ y)), w4, ws_nil, hw4, by simp, (k, y), ⟨w1, w2 ++ w3, hw1, ws_append hw2 hw3, rfl⟩, hk, hr⟩
  obtain ⟨ts', h4, h5⟩ := enclosed_trim h1 h3
  obtain ⟨ms', h6, h7⟩ := each_split h5
  exact ⟨ms', ⟨ts', h4, h6⟩, h7⟩

end

end Jzon

namespace Jzon

open Spec

section
variable {F : Type} {Γ : TyEnv F} {cfg : DecCfg F} {lax : Bool} {sel : List (List Byte) → List Byte → Nat → Prop}

/-- The relation of a type with options. -/
def DecodesO (Γ : TyEnv F) (cfg : DecCfg F) (lax : Bool) (sel : List (List Byte) → List Byte → Nat → Prop) (T : Ty) : Rel F :=
  fun o old t v => ∃ n, DecodesN Γ cfg lax sel n T o old t v

theorem decodesO_iff {T : Ty} {o : DecOpts} {old v : Val F} {t : List Byte} {k : Nat} (hk : t.length < k) :
    DecodesO Γ cfg lax sel T o old t v ↔ DecodesN Γ cfg lax sel k T o old t v :=
  ⟨fun ⟨_, h⟩ => decodesN_depth hk h, fun h => ⟨k, h⟩⟩

theorem decodesO_ptr {T : Ty} {o : DecOpts} {old v : Val F} {t : List Byte} :
    DecodesO Γ cfg lax sel (.ptr T) o old t v ↔ PtrRel (Γ.zero cfg T) (DecodesO Γ cfg lax sel T) o old t v := by
  rw [decodesO_iff (Nat.lt_succ_self _)]
  simp only [DecodesN]
  exact ⟨ptrRel_mono (k := t.length + 1) (fun _ _ _ _ ht h => (decodesO_iff ht).mpr h) (by omega),
    ptrRel_mono (k := t.length + 1) (fun _ _ _ _ ht h => (decodesO_iff ht).mp h) (by omega)⟩

theorem decodesO_slice {T E : Ty} (hT : Is Γ T (.slice E)) {o : DecOpts} {old v : Val F} {t : List Byte} :
    DecodesO Γ cfg lax sel T o old t v ↔
      SliceRel cfg.base64 (E == .uint .w8) (Γ.zero cfg E) (DecodesO Γ cfg lax sel E) o old t v := by
  rw [decodesO_iff (Nat.lt_succ_self _)]
  have : DecodesN Γ cfg lax sel (t.length + 1) T o old t v ↔
      ∃ k, t.length ≤ k ∧ SliceRel cfg.base64 (E == .uint .w8) (Γ.zero cfg E) (DecodesN Γ cfg lax sel k E) o old t v := by
    cases hT with
    | slice =>
      simp only [DecodesN]
      exact ⟨fun h => ⟨_, by omega, h⟩, fun ⟨k, hk, h⟩ => sliceRel_mono (k := t.length)
        (fun _ _ _ _ ht h => decodesN_depth (by omega) h) (by omega) h⟩
    | named i _ hd =>
      simp only [DecodesN, hd]
      exact ⟨fun h => ⟨_, by omega, h⟩, fun ⟨k, hk, h⟩ => sliceRel_mono (k := t.length)
        (fun _ _ _ _ ht h => decodesN_depth (by omega) h) (by omega) h⟩
  rw [this]
  constructor
  · rintro ⟨k, hk, h⟩
    exact sliceRel_mono (k := t.length) (fun _ _ _ _ ht h => ⟨_, h⟩) (by omega) h
  · intro h
    exact ⟨t.length, by omega, sliceRel_mono (k := t.length) (fun _ _ _ _ ht h => (decodesO_iff ht).mp h) (by omega) h⟩

theorem decodesO_array {T E : Ty} {n : Nat} (hT : Is Γ T (.array n E)) {o : DecOpts} {old v : Val F} {t : List Byte} :
    DecodesO Γ cfg lax sel T o old t v ↔ ArrayRel n (Γ.zero cfg E) (DecodesO Γ cfg lax sel E) o old t v := by
  rw [decodesO_iff (Nat.lt_succ_self _)]
  have : DecodesN Γ cfg lax sel (t.length + 1) T o old t v ↔
      ∃ k, t.length ≤ k ∧ ArrayRel n (Γ.zero cfg E) (DecodesN Γ cfg lax sel k E) o old t v := by
    cases hT with
    | array =>
      simp only [DecodesN]
      exact ⟨fun h => ⟨_, by omega, h⟩, fun ⟨k, hk, h⟩ => arrayRel_mono (k := t.length)
        (fun _ _ _ _ ht h => decodesN_depth (by omega) h) (by omega) h⟩
    | named i _ hd =>
      simp only [DecodesN, hd]
      exact ⟨fun h => ⟨_, by omega, h⟩, fun ⟨k, hk, h⟩ => arrayRel_mono (k := t.length)
        (fun _ _ _ _ ht h => decodesN_depth (by omega) h) (by omega) h⟩
  rw [this]
  constructor
  · rintro ⟨k, hk, h⟩
    exact arrayRel_mono (k := t.length) (fun _ _ _ _ ht h => ⟨_, h⟩) (by omega) h
  · intro h
    exact ⟨t.length, by omega, arrayRel_mono (k := t.length) (fun _ _ _ _ ht h => (decodesO_iff ht).mp h) (by omega) h⟩

theorem decodesO_map {T E : Ty} {K : KeyTy} (hT : Is Γ T (.map K E)) {o : DecOpts} {old v : Val F} {t : List Byte} :
    DecodesO Γ cfg lax sel T o old t v ↔ MapRel (KeyRel Γ lax K) (Γ.zero cfg E) (DecodesO Γ cfg lax sel E) o old t v := by
  rw [decodesO_iff (Nat.lt_succ_self _)]
  have : DecodesN Γ cfg lax sel (t.length + 1) T o old t v ↔
      ∃ k, t.length ≤ k ∧ MapRel (KeyRel Γ lax K) (Γ.zero cfg E) (DecodesN Γ cfg lax sel k E) o old t v := by
    cases hT with
    | map =>
      simp only [DecodesN]
      exact ⟨fun h => ⟨_, by omega, h⟩, fun ⟨k, hk, h⟩ => mapRel_mono (k := t.length)
        (fun _ _ _ _ ht h => decodesN_depth (by omega) h) (by omega) h⟩
    | named i _ hd =>
      simp only [DecodesN, hd]
      exact ⟨fun h => ⟨_, by omega, h⟩, fun ⟨k, hk, h⟩ => mapRel_mono (k := t.length)
        (fun _ _ _ _ ht h => decodesN_depth (by omega) h) (by omega) h⟩
  rw [this]
  constructor
  · rintro ⟨k, hk, h⟩
    exact mapRel_mono (k := t.length) (fun _ _ _ _ ht h => ⟨_, h⟩) (by omega) h
  · intro h
    exact ⟨t.length, by omega, mapRel_mono (k := t.length) (fun _ _ _ _ ht h => (decodesO_iff ht).mp h) (by omega) h⟩

theorem decodesO_struct {i : Nat} {fs : List Field} (hd : Γ.defn i = .struct fs) {o : DecOpts} {old v : Val F} {t : List Byte} :
    DecodesO Γ cfg lax sel (.named i) o old t v ↔
      StructRel cfg.disallowUnknownFields (Γ.zero cfg) (sel (fs.map Field.name)) fs (DecodesO Γ cfg lax sel) o old t v := by
  rw [decodesO_iff (Nat.lt_succ_self _)]
  simp only [DecodesN, hd]
  exact ⟨structRel_mono (k := t.length) (fun _ _ _ _ _ ht h => ⟨_, h⟩) (by omega),
    structRel_mono (k := t.length) (fun _ _ _ _ _ ht h => (decodesO_iff ht).mp h) (by omega)⟩

/-- Every text begins with a byte that is no white space. -/
theorem decodes_headed (hl : DecLaws Γ cfg sel) {T : Ty} {o : DecOpts} {old v : Val F} {t : List Byte}
    (h : DecodesO Γ cfg true sel T o old t v) : ∃ c u, t = c :: u ∧ isWs c = false := by
  obtain ⟨n, h⟩ := h
  obtain ⟨c, u, h1, h2, _⟩ := (decoderOf_impl (env := ⟨.eof, 0⟩) hl ⟨⟨[], 0⟩, ⟨[], 0, 0, false, none⟩⟩ n T o old).head h
  exact ⟨c, u, h1, h2⟩

end

end Jzon
