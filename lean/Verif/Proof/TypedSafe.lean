import Verif.Proof.HasTy
import Verif.Spec.Unknown
import Verif.Proof.SafeOps

/-!
# Typed decoding neither panics nor hangs
-/

set_option linter.unusedSimpArgs false

namespace Jzon

open Spec

/-- The decision after a token fails only with ordinary errors. -/
macro "ordinary" : tactic => `(tactic|
  (intro c e h; repeat' split at h
   all_goals first
     | (cases h; done)
     | (cases h; simp [Bad])))

section
variable {F : Type} {uf : Watch} {env : Env} {l : List Byte} (henv : ¬ Bad uf env.endErr)

theorem safe_ofExcept {α : Type} {x : Except Err α} (h : ∀ e, x = .error e → ¬ Bad uf e) : Safe uf (Prog.ofExcept x) env l := by
  cases x with
  | ok a => exact safe_pure' a
  | error e => exact safe_fail (h e rfl)

include henv

theorem safe_nullThen {V : Type} {v : V} : Safe uf (nullThen v) env l :=
  safe_bind (safe_expectBytes henv (by decide)) fun _ _ _ => safe_pure _

theorem safe_boolDecoder {o : DecOpts} {old : Val F} : Safe uf (boolDecoder o old) env l := by
  unfold boolDecoder
  refine safe_bind (safe_token henv (by ordinary)) fun c l1 _ => ?_
  split
  · exact safe_nullThen henv
  split
  · exact safe_bind (safe_expectBytes henv (by decide)) fun _ _ _ => safe_pure _
  split
  · exact safe_bind (safe_expectBytes henv (by decide)) fun _ _ _ => safe_pure _
  refine safe_bind (safe_nextToken henv) fun c l1 _ => ?_
  split
  · exact safe_bind (safe_expectBytes henv (by decide)) fun _ _ _ => safe_pure _
  split
  · exact safe_bind (safe_expectBytes henv (by decide)) fun _ _ _ => safe_pure _
  split
  · exact safe_bind (safe_expectBytes henv (by decide)) fun _ _ _ => safe_pure _
  exact safe_fail (by simp [Bad])

theorem safe_stringDecoder {pools : Pools} {o : DecOpts} {old : Val F} : Safe uf (stringDecoder pools o old) env l := by
  unfold stringDecoder
  refine safe_bind (safe_token henv (by ordinary)) fun c l1 _ => ?_
  split
  · refine safe_bind (safe_readString henv) fun s l2 _ => ?_
    split
    · exact safe_pure _
    split
    · exact safe_fail (by simp [Bad])
    split
    · split
      · exact safe_fail (by simp [Bad])
      · exact safe_pure _
    split
    · split
      · exact safe_fail (by simp [Bad])
      · refine safe_bind (safe_ofExcept ?_) fun _ _ _ => safe_pure _
        intro e he
        unfold unquote at he
        split at he
        · cases he
        · cases he; simp [Bad]
    · exact safe_fail (by simp [Bad])
  · exact safe_nullThen henv

theorem safe_intDecoder {read : Byte → Prog Int} (hr : ∀ c l, Safe uf (read c) env l) {o : DecOpts} {old : Val F} :
    Safe uf (intDecoder read o old) env l := by
  unfold intDecoder
  simp only
  refine safe_bind (safe_token henv (by ordinary)) fun c l1 _ => ?_
  split
  · exact safe_nullThen henv
  split
  · refine safe_bind (safe_nextByte henv) fun c l2 _ => safe_bind (hr _ _) fun i l3 _ => safe_bind (safe_byte henv (by ordinary)) fun _ _ _ => safe_pure _
  · exact safe_bind (hr _ _) fun i l3 _ => safe_pure _

theorem safe_readIntOf {w : Width} {c : Byte} : Safe uf (readIntOf w c) env l := by
  cases w
  · exact safe_bind (safe_readInt henv fun _ _ => safe_readUint8 henv) fun _ _ _ => safe_pure _
  · exact safe_bind (safe_readInt henv fun _ _ => safe_readUint henv) fun _ _ _ => safe_pure _
  · exact safe_bind (safe_readInt henv fun _ _ => safe_readUint henv) fun _ _ _ => safe_pure _
  · exact safe_bind (safe_readInt henv fun _ _ => safe_readUint henv) fun _ _ _ => safe_pure _

theorem safe_readUintOf {w : Width} {c : Byte} : Safe uf (readUintOf w c) env l := by
  cases w
  · exact safe_bind (safe_readUint8 henv) fun _ _ _ => safe_pure _
  · exact safe_bind (safe_readUint henv) fun _ _ _ => safe_pure _
  · exact safe_bind (safe_readUint henv) fun _ _ _ => safe_pure _
  · exact safe_bind (safe_readUint henv) fun _ _ _ => safe_pure _

theorem safe_floatDecoder {ops : FloatOps F} (hops : ∀ t e, ops.parse t = .error e → ¬ Bad uf e) {o : DecOpts} {old : Val F} :
    Safe uf (floatDecoder ops o old) env l := by
  unfold floatDecoder
  refine safe_bind (safe_token henv (by ordinary)) fun c l1 _ => ?_
  split
  · exact safe_nullThen henv
  · exact safe_bind (safe_nextToken henv) fun _ _ _ => safe_bind (safe_readFloat henv hops) fun _ _ _ => safe_pure _

theorem safe_jsonNumberDecoder {o : DecOpts} {old : Val F} : Safe uf (jsonNumberDecoder o old) env l := by
  unfold jsonNumberDecoder
  refine safe_bind (safe_token henv (by ordinary)) fun c l1 _ => ?_
  split
  · exact safe_bind (safe_byte henv (by ordinary)) fun _ _ _ => safe_bind (safe_readNumberAsString henv) fun _ _ _ =>
      safe_bind (safe_byte henv (by ordinary)) fun _ _ _ => safe_pure _
  split
  · exact safe_nullThen henv
  · exact safe_bind (safe_readNumberAsString henv) fun _ _ _ => safe_pure _

theorem safe_AppendRaw {pool : Stack} {inp : List Byte} : Safe uf (AppendRaw pool inp) env l := by
  unfold AppendRaw
  exact safe_bind (safe_SkipRaw henv pool) fun _ _ _ => safe_pure _

theorem safe_rawDecoder {pools : Pools} {o : DecOpts} {old : Val F} : Safe uf (rawDecoder pools o old) env l :=
  safe_bind (safe_AppendRaw henv) fun _ _ _ => safe_pure _

theorem safe_anyDecoder {cfg : DecCfg F} (hops : ∀ t e, cfg.ops64.parse t = .error e → ¬ Bad uf e) {pools : Pools} {o : DecOpts} {old : Val F} :
    Safe uf (anyDecoder cfg pools o old) env l :=
  safe_bind (safe_Read (cfg := ⟨cfg.useNumber, cfg.ops64⟩) henv hops pools.stack) fun _ _ _ => safe_pure _

theorem safe_jsonUnmarshalerDecoder {pools : Pools} {f : Val F → List Byte → Except Err (Val F)}
    (hf : ∀ v t e, f v t = .error e → ¬ Bad uf e) {o : DecOpts} {old : Val F} : Safe uf (jsonUnmarshalerDecoder pools f o old) env l :=
  safe_bind (safe_SkipRaw henv pools.stack) fun _ _ _ => safe_ofExcept fun e he => hf _ _ _ he

theorem safe_textUnmarshalerDecoder {f : Val F → List Byte → Except Err (Val F)}
    (hf : ∀ v t e, f v t = .error e → ¬ Bad uf e) {o : DecOpts} {old : Val F} : Safe uf (textUnmarshalerDecoder f o old) env l := by
  unfold textUnmarshalerDecoder
  refine safe_bind (safe_token henv (by ordinary)) fun c l1 _ => ?_
  split
  · exact safe_bind (safe_readString henv) fun _ _ _ => safe_ofExcept fun e he => hf _ _ _ he
  · exact safe_nullThen henv

theorem safe_keyDecoder {Γ : TyEnv F} {pools : Pools} {K : KeyTy} (hf : ∀ i v t e, Γ.unmarshalText i v t = .error e → ¬ Bad uf e)
    {o : DecOpts} {old : Val F} : Safe uf (keyDecoder Γ pools K o old) env l := by
  cases K with
  | str => exact safe_stringDecoder henv
  | int w => exact safe_intDecoder henv fun _ _ => safe_readIntOf henv
  | uint w => exact safe_intDecoder henv fun _ _ => safe_readUintOf henv
  | text i => exact safe_textUnmarshalerDecoder henv (hf i) (o := { mapKey := true })

theorem safe_ptrDecoder {zero : Val F} {elem : ValDecoder (Val F)} {o : DecOpts} {old : Val F}
    (he : ∀ l', l'.length ≤ l.length → Safe uf (elem o (pointee zero old)) env l') : Safe uf (ptrDecoder zero elem o old) env l := by
  unfold ptrDecoder
  refine safe_bind (safe_token henv (by ordinary)) fun c l1 h1 => ?_
  split
  · exact safe_nullThen henv
  · exact safe_bind (he _ (Runs.length_le h1)) fun _ _ _ => safe_pure _

theorem safe_sliceLoop {zero : Val F} {elem : ValDecoder (Val F)} {N : Nat} (he : ∀ l', l'.length ≤ N → Safe uf (elem {} zero) env l')
    {n : Nat} {sh : SliceHeader (Val F)} {vs : List (Val F)} (hh : Holds zero sh vs) (hn : l.length < n) (hN : l.length ≤ N) :
    Safe uf (sliceLoop zero elem n (vs.length + 1) sh) env l := by
  induction n generalizing l sh vs with
  | zero => omega
  | succ n ih =>
    obtain ⟨k, hg⟩ := grow_holds hh
    have hget : (vs ++ zero :: List.replicate k zero)[vs.length + 1 - 1]? = some zero := by
      rw [Nat.add_sub_cancel, List.getElem?_append_right (by omega)]
      simp
    have hset : ∀ v, (vs ++ zero :: List.replicate k zero).set (vs.length + 1 - 1) v = (vs ++ [v]) ++ List.replicate k zero := by
      intro v
      rw [Nat.add_sub_cancel, List.set_append_right _ _ (by omega)]
      simp
    rw [sliceLoop, hg]
    simp only [hget, hset]
    refine safe_bind (he _ hN) fun v l1 h1 => safe_bind (safe_nextToken henv) fun c l2 h2 => ?_
    have e1 := Runs.length_le h1
    have e2 := token_take_length (by intro c; simp) h2
    split
    · exact safe_pure _
    split
    · exact safe_fail (by simp [Bad])
    have := ih (l := l2) (sh := ⟨vs.length + 1, (vs ++ [v]) ++ List.replicate k zero⟩) (vs := vs ++ [v]) ⟨by simp, k, rfl⟩ (by omega) (by omega)
    simpa using this

theorem safe_sliceDecoder {cfg : DecCfg F} (hb : ∀ t e, cfg.base64 t = .error e → ¬ Bad uf e) {isByte : Bool} {zero : Val F}
    {elem : ValDecoder (Val F)} (he : ∀ l', l'.length < l.length → Safe uf (elem {} zero) env l') {o : DecOpts} {old : Val F} :
    Safe uf (sliceDecoder cfg isByte zero elem o old) env l := by
  unfold sliceDecoder
  refine safe_bind (safe_token henv (by ordinary)) fun c l1 h1 => ?_
  have e1 := token_take_length (by intro c; split <;> simp) h1
  split
  · exact safe_nullThen henv
  split
  · exact safe_bind (safe_captured (safe_skipString henv)) fun _ _ _ => safe_bind (safe_ofExcept fun e he => hb _ _ he) fun _ _ _ => safe_pure _
  refine safe_bind (safe_token henv (by ordinary)) fun c l2 h2 => ?_
  have e2 := Runs.length_le h2
  simp only
  split
  · exact safe_pure _
  · refine safe_bind safe_remaining fun m l3 h => ?_
    obtain ⟨rfl, rfl⟩ := runs_remaining.mp h
    exact safe_bind (safe_sliceLoop henv (N := l1.length) (fun l' h => he l' (by omega)) (vs := []) (sh := unsafeMakeSlice zero 0 0)
      ⟨rfl, 0, rfl⟩ (by omega) (by omega)) fun _ _ _ => safe_pure _

theorem safe_arrayLoop {pools : Pools} {len : Nat} {zero : Val F} {elem : ValDecoder (Val F)} {Q : Val F → Prop} {N : Nat} (hz : Q zero)
    (he : ∀ a l', Q a → l'.length ≤ N → Safe uf (elem {} a) env l') (hq : ∀ a l b r, Q a → Runs (elem {} a) env l b r → Q b)
    {n : Nat} {count : Nat} {vs : List (Val F)} (hvs : ∀ v ∈ vs, Q v) (hn : l.length < n) (hN : l.length ≤ N) :
    Safe uf (arrayLoop pools len zero elem n count vs) env l := by
  induction n generalizing l count vs with
  | zero => omega
  | succ n ih =>
    have hget : Q ((vs[count]?).getD zero) := by
      cases h : vs[count]? with
      | none => exact hz
      | some v => exact hvs v (List.mem_of_getElem? h)
    unfold arrayLoop
    refine safe_bind (?_ : Safe uf _ env l) fun s l1 h1 => ?_
    · split
      · exact safe_bind (he _ _ hget hN) fun _ _ _ => safe_pure _
      · exact safe_bind (safe_Skip henv _) fun _ _ _ => safe_pure _
    obtain ⟨count', vs'⟩ := s
    have hvs' : ∀ v ∈ vs', Q v := by
      split at h1
      · obtain ⟨v, l2, h2, h3⟩ := runs_bind.mp h1
        obtain ⟨h4, -⟩ := runs_pure.mp h3
        cases h4
        intro x hx
        rcases List.mem_or_eq_of_mem_set hx with hx | rfl
        · exact hvs x hx
        · exact hq _ _ _ _ hget h2
      · obtain ⟨v, l2, h2, h3⟩ := runs_bind.mp h1
        obtain ⟨h4, -⟩ := runs_pure.mp h3
        cases h4
        exact hvs
    refine safe_bind (safe_nextToken henv) fun c l2 h2 => ?_
    have e1 := Runs.length_le h1
    have e2 := token_take_length (by intro c; simp) h2
    split
    · exact safe_pure _
    split
    · exact safe_fail (by simp [Bad])
    exact ih hvs' (by omega) (by omega)

theorem safe_arrayDecoder {pools : Pools} {len : Nat} {zero : Val F} {elem : ValDecoder (Val F)} {Q : Val F → Prop} (hz : Q zero)
    (he : ∀ a l', Q a → l'.length < l.length → Safe uf (elem {} a) env l') (hq : ∀ a l b r, Q a → Runs (elem {} a) env l b r → Q b)
    {o : DecOpts} {old : Val F} (hold : ∀ v ∈ arrayElems len zero old, Q v) :
    Safe uf (arrayDecoder pools len zero elem o old) env l := by
  unfold arrayDecoder
  refine safe_bind (safe_token henv (by ordinary)) fun c l1 h1 => ?_
  have e1 := token_take_length (by intro c; split <;> simp) h1
  split
  · exact safe_nullThen henv
  refine safe_bind (safe_token henv (by ordinary)) fun c l2 h2 => ?_
  have e2 := Runs.length_le h2
  split
  · exact safe_pure _
  · refine safe_bind safe_remaining fun m l3 h => ?_
    obtain ⟨rfl, rfl⟩ := runs_remaining.mp h
    exact safe_bind (safe_arrayLoop henv (N := l1.length) hz (fun a l' ha h => he a l' ha (by omega)) hq hold (by omega) (by omega))
      fun _ _ _ => safe_pure _

theorem safe_mapLoop {keyZero zero : Val F} {keyDec elem : ValDecoder (Val F)} {N : Nat}
    (hk : ∀ l', Safe uf (keyDec { mapKey := true } keyZero) env l') (he : ∀ l', l'.length ≤ N → Safe uf (elem {} zero) env l')
    {n : Nat} {m : Key → Option (Val F)} (hn : l.length < n) (hN : l.length ≤ N) :
    Safe uf (mapLoop keyZero zero keyDec elem n m) env l := by
  induction n generalizing l m with
  | zero => omega
  | succ n ih =>
    unfold mapLoop
    refine safe_bind (hk _) fun k l1 h1 => safe_bind (safe_colon henv) fun _ l2 h2 => ?_
    have e1 := Runs.length_le h1
    have e2 := Runs.length_le h2
    refine safe_bind (he _ (by omega)) fun v l3 h3 => safe_bind (safe_token henv (by ordinary)) fun c l4 h4 => ?_
    have e3 := Runs.length_le h3
    have e4 := token_take_length (by intro c; split <;> (try split) <;> simp) h4
    split
    · exact safe_pure _
    · exact ih (by omega) (by omega)

theorem safe_mapDecoder {keyZero zero : Val F} {keyDec elem : ValDecoder (Val F)}
    (hk : ∀ l', Safe uf (keyDec { mapKey := true } keyZero) env l') (he : ∀ l', l'.length < l.length → Safe uf (elem {} zero) env l')
    {o : DecOpts} {old : Val F} : Safe uf (mapDecoder keyZero zero keyDec elem o old) env l := by
  unfold mapDecoder
  refine safe_bind (safe_token henv (by ordinary)) fun c l1 h1 => ?_
  have e1 := token_take_length (by intro c; split <;> simp) h1
  split
  · exact safe_nullThen henv
  refine safe_bind (safe_token henv (by ordinary)) fun c l2 h2 => ?_
  have e2 := Runs.length_le h2
  split
  · exact safe_pure _
  · refine safe_bind safe_remaining fun m l3 h => ?_
    obtain ⟨rfl, rfl⟩ := runs_remaining.mp h
    exact safe_bind (safe_mapLoop henv (N := l1.length) hk (fun l' h => he l' (by omega)) (by omega) (by omega))
      fun _ _ _ => safe_pure _

theorem safe_structLoop {member : List Byte → Val F → Prog (Val F)} {Q : Val F → Prop} {N : Nat}
    (hm : ∀ k a l', Q a → l'.length ≤ N → Safe uf (member k a) env l') (hq : ∀ k a l b r, Q a → Runs (member k a) env l b r → Q b)
    {n : Nat} {v : Val F} (hv : Q v) (hn : l.length < n) (hN : l.length ≤ N) : Safe uf (structLoop member n v) env l := by
  induction n generalizing l v with
  | zero => omega
  | succ n ih =>
    unfold structLoop
    refine safe_bind (safe_readObjectField henv) fun k l1 h1 => ?_
    have e1 := Runs.length_le h1
    refine safe_bind (hm _ _ _ hv (by omega)) fun v' l2 h2 => safe_bind (safe_token henv (by ordinary)) fun c l3 h3 => ?_
    have e2 := Runs.length_le h2
    have e3 := token_take_length (by intro c; split <;> (try split) <;> simp) h3
    split
    · exact safe_pure _
    · refine safe_bind (safe_quote henv) fun _ l4 h4 => ?_
      have e4 := Runs.length_le h4
      exact ih (hq _ _ _ _ _ hv h2) (by omega) (by omega)

theorem safe_structDecoder {member : List Byte → Val F → Prog (Val F)} {Q : Val F → Prop}
    (hm : ∀ k a l', Q a → l'.length < l.length → Safe uf (member k a) env l') (hq : ∀ k a l b r, Q a → Runs (member k a) env l b r → Q b)
    {o : DecOpts} {old : Val F} (hv : Q old) : Safe uf (structDecoder member o old) env l := by
  unfold structDecoder
  refine safe_bind (safe_token henv (by ordinary)) fun c l1 h1 => ?_
  have e1 := token_take_length (by intro c; split <;> simp) h1
  split
  · exact safe_nullThen henv
  refine safe_bind (safe_token henv (by ordinary)) fun c l2 h2 => ?_
  have e2 := Runs.length_le h2
  split
  · exact safe_pure _
  · refine safe_bind safe_remaining fun m l3 h => ?_
    obtain ⟨rfl, rfl⟩ := runs_remaining.mp h
    exact safe_structLoop henv (N := l1.length) (fun k a l' ha h => hm k a l' ha (by omega)) hq hv (by omega) (by omega)

theorem safe_emptyObjectDecoder {cfg : DecCfg F} {pools : Pools} {o : DecOpts} {old : Val F} :
    Safe uf (emptyObjectDecoder cfg pools o old) env l := by
  unfold emptyObjectDecoder
  refine safe_bind (safe_nextToken henv) fun c l1 h1 => ?_
  split
  · exact safe_nullThen henv
  split
  · split
    · refine safe_bind (safe_nextToken henv) fun c l1 h1 => ?_
      split
      · exact safe_fail (by simp [Bad])
      · exact safe_pure _
    · exact safe_bind (safe_skipFunction henv _) fun _ _ _ => safe_pure _
  · exact safe_fail (by simp [Bad])

omit henv in
theorem safe_atPath {Γ : TyEnv F} {cfg : DecCfg F} {L : Nat → List Ty} (hd : Declared Γ L) {f : Val F → Prog (Val F)} {p : List PathStep}
    {T T' : Ty} (hp : PathTy Γ L T p T') {s : Val F} (hs : HasTy Γ L T s) (hf : ∀ a, HasTy Γ L T' a → Safe uf (f a) env l) :
    Safe uf (atPath (Γ.zero cfg) p f s) env l := by
  induction hp generalizing s with
  | here T => exact hf s hs
  | member i k fs T T' p hdef hk hp ih =>
    cases hs with
    | struct _ fs' vs hT hn hv =>
      have hlt : k < vs.length := by
        rw [hn]
        exact (List.getElem?_eq_some_iff.mp hk).1
      have hg : vs[k]? = some vs[k] := by simp [hlt]
      simp only [atPath, hg]
      exact safe_bind (ih (hv k _ _ hg hk) hf) fun _ _ _ => safe_pure _
    | nilSlice _ _ h => cases h with
      | named _ _ h => rw [hdef] at h; cases h
    | slice _ _ _ h => cases h with
      | named _ _ h => rw [hdef] at h; cases h
    | arr _ _ _ _ h => cases h with
      | named _ _ h => rw [hdef] at h; cases h
    | nilMap _ _ _ h => cases h with
      | named _ _ h => rw [hdef] at h; cases h
    | map _ _ _ _ h => cases h with
      | named _ _ h => rw [hdef] at h; cases h
  | deref e T T' p hp ih =>
    cases hs with
    | nilPtr =>
      simp only [atPath]
      split
      · exact safe_fail (by simp [Bad])
      · exact safe_bind (ih (hasTy_zero hd T) hf) fun _ _ _ => safe_pure _
    | ptr _ v h =>
      simp only [atPath]
      exact safe_bind (ih h hf) fun _ _ _ => safe_pure _
    | nilSlice _ _ h => cases h
    | slice _ _ _ h => cases h
    | arr _ _ _ _ h => cases h
    | nilMap _ _ _ h => cases h
    | map _ _ _ _ h => cases h

end

/-! ## Every type -/

section
variable {F : Type} {Γ : TyEnv F} {cfg : DecCfg F} {L : Nat → List Ty} {sel : List (List Byte) → List Byte → Nat → Prop}

/-- What the proofs assume about the errors of functions that are not modelled. -/
structure Tame (uf : Watch) (Γ : TyEnv F) (cfg : DecCfg F) : Prop where
  ops32 : ∀ t e, cfg.ops32.parse t = .error e → ¬ Bad uf e
  ops64 : ∀ t e, cfg.ops64.parse t = .error e → ¬ Bad uf e
  base64 : ∀ t e, cfg.base64 t = .error e → ¬ Bad uf e
  json : ∀ i v t e, Γ.unmarshalJSON i v t = .error e → ¬ Bad uf e
  text : ∀ i v t e, Γ.unmarshalText i v t = .error e → ¬ Bad uf e

theorem closed_all : Closed Γ (fun _ => True) := ⟨fun _ _ => trivial, fun _ _ _ _ => trivial, fun _ _ _ _ _ => trivial, fun _ _ _ _ _ => trivial, fun _ _ _ _ _ _ => trivial⟩

theorem safe_decoderOf {uf : Watch} {env : Env} (henv : ¬ Bad uf env.endErr) (hl : DecLaws Γ cfg sel) (ht : Tame uf Γ cfg) (hd : Declared Γ L)
    {P : Ty → Prop} (hP : Closed Γ P)
    (hu : uf = .known → cfg.disallowUnknownFields = true → ∀ i fs, P (.named i) → Γ.defn i = .struct fs → fs = [])
    (hin : ∀ i fs, Γ.defn i = .struct fs → ∀ key j, sel (fs.map Field.name) key j → j < fs.length)
    (pools : Pools) {n : Nat} {T : Ty} {o : DecOpts} {old : Val F} {l : List Byte} (hT : P T) (hold : HasTy Γ L T old) (hn : l.length < n) :
    Safe uf (decoderOf Γ cfg pools n T o old) env l := by
  have step : ∀ n T o old l b r, HasTy Γ L T old → Runs (decoderOf Γ cfg pools n T o old) env l b r → HasTy Γ L T b := by
    intro n T o old l b r h1 h2
    obtain ⟨_, _, _, _, h⟩ := (decoderOf_impl hl pools n T o old).sound h2
    exact decodesN_hasTy hd h1 h
  have arr : ∀ {T E : Ty} {k : Nat} {old : Val F}, Is Γ T (.array k E) → HasTy Γ L T old → ∀ v ∈ arrayElems k (Γ.zero cfg E) old, HasTy Γ L E v := by
    intro T E k old hT hold v hv
    obtain ⟨i, hi⟩ := List.getElem?_of_mem hv
    have hlt := (List.getElem?_eq_some_iff.mp hi).1
    rw [arrayElems_length] at hlt
    have := arrayElems_get (zero := Γ.zero cfg E) (old := old) hlt
    rw [hi] at this
    simp only [Option.getD_some] at this
    rw [this]
    exact element_hasTy hd hT hold i
  induction n generalizing T o old l with
  | zero => omega
  | succ n ihn =>
    induction T generalizing o old l with
    | bool => simp only [decoderOf, decoderStep]; exact safe_boolDecoder henv
    | str => simp only [decoderOf, decoderStep]; exact safe_stringDecoder henv
    | int w => simp only [decoderOf, decoderStep]; exact safe_intDecoder henv fun _ _ => safe_readIntOf henv
    | uint w => simp only [decoderOf, decoderStep]; exact safe_intDecoder henv fun _ _ => safe_readUintOf henv
    | float32 => simp only [decoderOf, decoderStep]; exact safe_floatDecoder henv ht.ops32
    | float64 => simp only [decoderOf, decoderStep]; exact safe_floatDecoder henv ht.ops64
    | number => simp only [decoderOf, decoderStep]; exact safe_jsonNumberDecoder henv
    | raw => simp only [decoderOf, decoderStep]; exact safe_rawDecoder henv
    | any => simp only [decoderOf, decoderStep]; exact safe_anyDecoder henv ht.ops64
    | ptr T ih =>
      simp only [decoderOf, decoderStep]
      exact safe_ptrDecoder henv fun l' h => ih (hP.ptr _ hT) (pointee_hasTy hd hold) (by omega)
    | slice T ih =>
      simp only [decoderOf, decoderStep]
      exact safe_sliceDecoder henv ht.base64 fun l' h => ih (hP.slice _ _ hT (.slice _)) (hasTy_zero hd T) (by omega)
    | array k T ih =>
      simp only [decoderOf, decoderStep]
      exact safe_arrayDecoder henv (Q := HasTy Γ L T) (hasTy_zero hd T) (fun a l' ha h => ih (hP.array _ _ _ hT (.array _ _)) ha (by omega))
        (fun _ _ _ _ => step _ _ _ _ _ _ _) (arr (.array _ _) hold)
    | map K T ih =>
      simp only [decoderOf, decoderStep]
      exact safe_mapDecoder henv (fun _ => safe_keyDecoder henv ht.text) fun l' h => ih (hP.map _ _ _ hT (.map _ _)) (hasTy_zero hd T) (by omega)
    | jsonUnmarshaler i => simp only [decoderOf, decoderStep]; exact safe_jsonUnmarshalerDecoder henv (ht.json i)
    | textUnmarshaler i => simp only [decoderOf, decoderStep]; exact safe_textUnmarshalerDecoder henv (ht.text i)
    | unsupported => simp only [decoderOf, decoderStep]; exact safe_fail (by simp [Bad])
    | named i =>
      rw [decoderOf, decoderStep, namedDecoder]
      cases hdef : Γ.defn i with
      | slice T =>
        exact safe_sliceDecoder henv ht.base64 fun l' h => ihn (hP.slice _ _ hT (.named _ _ hdef)) (hasTy_zero hd T) (by omega)
      | array k T =>
        exact safe_arrayDecoder henv (Q := HasTy Γ L T) (hasTy_zero hd T)
          (fun a l' ha h => ihn (hP.array _ _ _ hT (.named _ _ hdef)) ha (by omega))
          (fun _ _ _ _ => step _ _ _ _ _ _ _) (arr (.named _ _ hdef) hold)
      | map K T =>
        exact safe_mapDecoder henv (fun _ => safe_keyDecoder henv ht.text) fun l' h =>
          ihn (hP.map _ _ _ hT (.named _ _ hdef)) (hasTy_zero hd T) (by omega)
      | struct fs =>
        have hf := hl.finds i fs hdef
        cases fs with
        | nil => exact safe_emptyObjectDecoder henv
        | cons f0 fs0 =>
          simp only
          generalize hfs : f0 :: fs0 = fs at *
          refine safe_structDecoder henv (Q := HasTy Γ L (.named i)) ?_ ?_ hold
          · intro key a l' ha h
            obtain ⟨o', h1, h2⟩ := hf key
            unfold structMember
            refine safe_bind (safe_ofExcept fun e he => by rw [h1] at he; cases he) fun o1 l1 hr => ?_
            obtain ⟨hr1, hr2⟩ := runs_ofExcept.mp hr
            subst hr2
            rw [h1] at hr1
            cases hr1
            cases ho : o' with
            | some j =>
              have hj := hin i fs hdef key j ((h2 j).mpr ho)
              simp only [List.getElem?_eq_getElem hj]
              have hmem : fs[j] ∈ fs := List.getElem_mem hj
              exact safe_atPath hd (hd.fields i fs _ hdef hmem) ha fun a ha => ihn (hP.field i fs _ hT hdef hmem) ha (by omega)
            | none =>
              simp only
              split
              · rename_i hdis
                refine safe_fail ?_
                rintro (h | h | ⟨hb, _, _⟩ | ⟨_, h⟩)
                · cases h
                · cases h
                · have := hu hb hdis i fs hT hdef
                  rw [this] at hfs
                  cases hfs
                · exact h trivial
              · exact safe_bind (safe_Skip henv _) fun _ _ _ => safe_pure _
          · intro key a l b r ha hr
            rcases (structMember_iff hf).mp hr with ⟨j, f, _, h5, h6⟩ | ⟨_, _, _, rfl⟩
            · exact atPath_hasTy hd (hd.fields i fs f hdef (List.mem_of_getElem? h5)) ha (fun a b ha hb => step _ _ _ _ _ _ _ ha hb) h6
            · exact ha

end

end Jzon
