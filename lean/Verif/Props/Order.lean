import Verif.Proof.Order
import Verif.Props.Keys
import Verif.Props.Reorder

/-!
# C69: the order in which maps are visited

Go visits the entries of a map in another order each time.  What this may change in what is written, and what it may not.
-/

namespace Jzon.Props

open Spec Jzon

section
variable {F : Type} {Γ : TyEnv F} {E : EncEnv F} {cfg : DecCfg F} {same : Nat → Nat → Prop}

theorem visiting_laws (hE : EncLaws E) {order : Streamer → List Key → List Key} (ho : ∀ s keys, (order s keys).Perm keys) : EncLaws (E.visiting order) :=
  ⟨hE.entries, hE.finite, ho, hE.base64, hE.paths, hE.float32, hE.float64⟩

/-- If a value can be written, it can be written whatever the order is, with the same bytes in another order; so the texts have the same
length. -/
theorem C69_succeeds (hE : EncLaws E) {order : Streamer → List Key → List Key} (ho : ∀ s keys, (order s keys).Perm keys) {n n' : Nat} (hn : n ≤ n')
    {T : Ty} {v : Val F} {old old' : Streamer} {t : List Byte} (h : Marshal Γ E old n T v = .ok t) :
    ∃ t', Marshal Γ (E.visiting order) old' n' T v = .ok t' ∧ t.Perm t' ∧ t.length = t'.length := by
  obtain ⟨t', h1, h2⟩ := marshal_twin (old' := old') hE texts_all inherits_all orderRel_perm ho hn trivial h
  exact ⟨t', h1, h2, h2.length_eq⟩

/-- Whether a value can be written does not depend on the order.  The error may: where two entries cannot be written, it is the one
of the first. -/
theorem C69_fails (hE : EncLaws E) {order : Streamer → List Key → List Key} (ho : ∀ s keys, (order s keys).Perm keys) {n : Nat} {T : Ty} {v : Val F}
    {old old' : Streamer} : (∃ e, Marshal Γ E old n T v = .error e) ↔ ∃ e, Marshal Γ (E.visiting order) old' n T v = .error e := by
  constructor
  · rintro ⟨e, h⟩
    cases h' : Marshal Γ (E.visiting order) old' n T v with
    | error e => exact ⟨e, rfl⟩
    | ok t =>
      obtain ⟨t', h1, _⟩ := C69_succeeds (old' := old) (visiting_laws hE ho) hE.shuffle (Nat.le_refl n) h'
      rw [show (E.visiting order).visiting E.shuffle = E from rfl, h] at h1
      cases h1
  · rintro ⟨e, h⟩
    cases h' : Marshal Γ E old n T v with
    | error e => exact ⟨e, rfl⟩
    | ok t =>
      obtain ⟨t', h1, _⟩ := C69_succeeds (old' := old') hE ho (Nat.le_refl n) h'
      rw [h] at h1
      cases h1

/-- A value without map of more than one entry is always written in the same way. -/
theorem C69_equal (hE : EncLaws E) {order : Streamer → List Key → List Key} (ho : ∀ s keys, (order s keys).Perm keys) {n n' : Nat} (hn : n ≤ n')
    {T : Ty} {v : Val F} (hv : NoOrder v) {old old' : Streamer} {t : List Byte} (h : Marshal Γ E old n T v = .ok t) :
    Marshal Γ (E.visiting order) old' n' T v = .ok t := by
  obtain ⟨t', h1, rfl⟩ := marshal_twin (old' := old') hE texts_all inherits_noOrder orderRel_eq ho hn hv h
  exact h1

/-- If the ready-made texts in the value are JSON, only members of the same object change places; members of structs do not. -/
theorem C69_reordered (hE : EncLaws E) {order : Streamer → List Key → List Key} (ho : ∀ s keys, (order s keys).Perm keys)
    {apart : List Byte → List Byte → Prop} (hsym : ∀ s s', apart s s' → apart s' s) {n n' : Nat} (hn : n ≤ n') {T : Ty} {v : Val F}
    (hc : Clean Γ E T v) (ha : NamesApart Γ E apart T v) {old old' : Streamer} {t : List Byte} (h : Marshal Γ E old n T v = .ok t) :
    ∃ t', Marshal Γ (E.visiting order) old' n' T v = .ok t' ∧ Reordered apart t t' :=
  marshal_twin (old' := old') hE (texts_value hE) (inherits_apart clean_inherits) (orderRel_reordered hsym fun _ _ h => h.2) ho hn ⟨hc, ha⟩ h

/-- A reader does not notice the order. -/
theorem C69_read (hE : EncLaws E) {order : Streamer → List Key → List Key} (ho : ∀ s keys, (order s keys).Perm keys) (hl : TypeLaws Γ cfg same)
    (hlay : Layout Γ) {n n' : Nat} (hn : n ≤ n') {T U : Ty} {v : Val F} (hc : Clean Γ E T v) (ha : NamesApart Γ E (Apart same cfg.caseSensitive) T v)
    (hU : OrderFree Γ (Apart same cfg.caseSensitive) U) {old old' : Streamer} {t : List Byte} (h : Marshal Γ E old n T v = .ok t) (pools : Pools)
    (it : It) :
    ∃ t', Marshal Γ (E.visiting order) old' n' T v = .ok t' ∧
      ∀ x y, Unmarshal Γ cfg pools it t U x = .ok y ↔ Unmarshal Γ cfg pools it t' U x = .ok y := by
  have hsym : ∀ s s', Apart same cfg.caseSensitive s s' → Apart same cfg.caseSensitive s' s := fun s s' => apart_symm hl.fold
  obtain ⟨t', h1, h2⟩ := C69_reordered (old' := old') hE ho hsym hn hc ha h
  refine ⟨t', h1, fun x y => ?_⟩
  have := C63_reordered hl hlay (fun _ _ h => h) hsym pools it hU (old := x) (v := y) (w := []) (w2 := []) (u := []) (u2 := [])
    (by simp [Ws]) (by simp [Ws]) (by simp [Ws]) (by simp [Ws]) h2
  simpa using this

/-- The name that is written for a key: the string itself, if it is valid UTF-8, or the number. -/
theorem C69_name {html : Bool} {n s : List Byte} (hs : Str n s) :
    (∀ x, ValidUtf8 x → KeyText E html .str (.str x) n → s = x) ∧ (∀ w z, KeyText E html (.int w) (.int z) n → s = decimalInt z) ∧
    ∀ w z, KeyText E html (.uint w) (.int z) n → s = decimalInt z := by
  refine ⟨?_, ?_, ?_⟩
  · rintro x hx ⟨y, hy, h⟩
    cases hy
    exact C13_denotation_unique hs (stringText_valid hx h).1
  · rintro w z ⟨y, hy, _, rfl⟩
    cases hy
    exact C13_denotation_unique hs ⟨_, strBody_plain (plain_number (decimalInt_number z)), rfl⟩
  · rintro w z ⟨y, hy, _, rfl⟩
    cases hy
    exact C13_denotation_unique hs ⟨_, strBody_plain (plain_number (decimalInt_number z)), rfl⟩

end

/-! ## Cases -/

/-- `map[string]bool{"a": true, "b": false}` -/
def pairMap : Key → Option (Val (List Byte)) := fun k => if k = .str (bs! "a") then some (.bool true) else if k = .str (bs! "b") then some (.bool false) else none

/-- The keys in one order or the other. -/
def pairOrder (back : Bool) : List Key := if back then [.str (bs! "b"), .str (bs! "a")] else [.str (bs! "a"), .str (bs! "b")]

/-- An order in which `b` is before `a`, or the other way round. -/
def pairShuffle (back : Bool) : Streamer → List Key → List Key := fun _ keys => if keys.Perm (pairOrder back) then pairOrder back else keys

theorem pairShuffle_perm (back : Bool) (s : Streamer) (keys : List Key) : (pairShuffle back s keys).Perm keys := by
  unfold pairShuffle
  split
  · rename_i h
    exact h.symm
  · exact .refl _

theorem pairMap_some (k : Key) : (pairMap k).isSome ↔ k ∈ pairOrder false := by
  unfold pairMap pairOrder
  by_cases h : k = .str (bs! "a")
  · simp [h]
  · by_cases h' : k = .str (bs! "b") <;> simp [h, h']

theorem pairMap_keys (E : EncEnv (List Byte)) (hE : EncLaws E) (back : Bool) (s : Streamer) :
    ∃ keys, E.entries pairMap = some keys ∧ pairShuffle back s keys = pairOrder back := by
  cases hk : E.entries pairMap with
  | none => exact absurd hk (hE.finite _ ⟨pairOrder false, fun k h => (pairMap_some k).mp h⟩)
  | some keys =>
    refine ⟨keys, rfl, ?_⟩
    obtain ⟨h1, h2⟩ := hE.entries _ _ hk
    have hp : keys.Perm (pairOrder back) := by
      refine (List.perm_ext_iff_of_nodup h1 (by cases back <;> decide)).mpr fun k => ?_
      rw [h2 k, pairMap_some]
      cases back <;> simp [pairOrder, or_comm]
    simp only [pairShuffle, if_pos hp]

theorem pairMap_text (back : Bool) (old : Streamer) (n : Nat) :
    Marshal sampleEnv (sampleEnc.visiting (pairShuffle back)) old n (.map .str .bool) (.map pairMap) =
      match (membersEncode (sampleEnc.visiting (pairShuffle back)) .str boolEncoder pairMap (pairOrder back) (newStreamer (sampleEnc.visiting (pairShuffle back)) old).objectStart).error with
      | some e => .error e
      | none => .ok (membersEncode (sampleEnc.visiting (pairShuffle back)) .str boolEncoder pairMap (pairOrder back) (newStreamer (sampleEnc.visiting (pairShuffle back)) old).objectStart).buffer := by
  obtain ⟨keys, h1, h2⟩ := pairMap_keys sampleEnc sampleEnc_laws back (newStreamer sampleEnc old).objectStart
  have h' : (newStreamer (sampleEnc.visiting (pairShuffle back)) old).error = none := rfl
  have h1' : (sampleEnc.visiting (pairShuffle back)).entries pairMap = some keys := h1
  have h2' : (sampleEnc.visiting (pairShuffle back)).shuffle (newStreamer (sampleEnc.visiting (pairShuffle back)) old).objectStart keys = pairOrder back := h2
  have hK : keyCoder (sampleEnc.visiting (pairShuffle back)) .str ≠ none := by simp [keyCoder]
  simp only [Marshal, Streamer.value, encoderOf, encoderStep, mapEncoderOf, hK, if_false, mapEncoder, h1', h2', h', ne_eq, not_true_eq_false]
  rfl

theorem pairMap_forth (old : Streamer) (n : Nat) : Marshal sampleEnv (sampleEnc.visiting (pairShuffle false)) old n (.map .str .bool) (.map pairMap) =
    .ok (bs! "{\"a\":true,\"b\":false}") := by
  rw [pairMap_text]
  have (back : Bool) : newStreamer (sampleEnc.visiting (pairShuffle back)) old = ⟨none, [], none, false, true⟩ := rfl
  rw [this]
  exact of_okIs (by decide +kernel)

theorem pairMap_back (old : Streamer) (n : Nat) : Marshal sampleEnv (sampleEnc.visiting (pairShuffle true)) old n (.map .str .bool) (.map pairMap) =
    .ok (bs! "{\"b\":false,\"a\":true}") := by
  rw [pairMap_text]
  have (back : Bool) : newStreamer (sampleEnc.visiting (pairShuffle back)) old = ⟨none, [], none, false, true⟩ := rfl
  rw [this]
  exact of_okIs (by decide +kernel)

/-- The texts may be different: `Marshal` does not sort the keys. -/
theorem C69_unsorted : ∃ (E : EncEnv (List Byte)) (order : Streamer → List Key → List Key) (v : Val (List Byte)) (t t' : List Byte), EncLaws E ∧
    (∀ s keys, (order s keys).Perm keys) ∧ (∀ old n, Marshal sampleEnv E old n (.map .str .bool) v = .ok t) ∧
    (∀ old n, Marshal sampleEnv (E.visiting order) old n (.map .str .bool) v = .ok t') ∧ t ≠ t' :=
  ⟨sampleEnc.visiting (pairShuffle false), pairShuffle true, .map pairMap, _, _, visiting_laws sampleEnc_laws (pairShuffle_perm _), pairShuffle_perm _,
    pairMap_forth, pairMap_back, by decide⟩

theorem pairMap_clean : Clean sampleEnv (sampleEnc.visiting (pairShuffle false)) (.map .str .bool) (.map pairMap) :=
  .map _ _ _ _ (.map _ _) fun _ v _ => .bool v

theorem written_bool {F : Type} {Γ : TyEnv F} {E : EncEnv F} {U : Ty} {v x : Val F} (h : WrittenIn Γ E .bool v U x) : U = .bool := by
  cases h with
  | self => rfl
  | slice => exact nomatch ‹Is Γ Ty.bool (Def.slice _)›
  | arr => exact nomatch ‹Is Γ Ty.bool (Def.array _ _)›
  | map => exact nomatch ‹Is Γ Ty.bool (Def.map _ _)›

theorem pairMap_apart : NamesApart sampleEnv (sampleEnc.visiting (pairShuffle false)) (Apart sampleSame true) (.map .str .bool) (.map pairMap) := by
  intro S K U m k k' n n' s s' hv hS hne hk hk' hn hn' hs hs'
  cases hv with
  | self =>
    cases hS
    rw [pairMap_some] at hk hk'
    have ha : ValidUtf8 (bs! "a") := ⟨[0x61], by intro n hn; rw [List.mem_singleton.mp hn]; unfold Spec.Scalar; decide, by decide⟩
    have hb : ValidUtf8 (bs! "b") := ⟨[0x62], by intro n hn; rw [List.mem_singleton.mp hn]; unfold Spec.Scalar; decide, by decide⟩
    simp only [pairOrder, Bool.false_eq_true, if_false, List.mem_cons, List.not_mem_nil, or_false] at hk hk'
    rcases hk with rfl | rfl <;> rcases hk' with rfl | rfl
    · exact absurd rfl hne
    · rw [(C69_name hs).1 _ ha hn, (C69_name hs').1 _ hb hn']
      exact ⟨by decide, fun h => by cases h⟩
    · rw [(C69_name hs).1 _ hb hn, (C69_name hs').1 _ ha hn']
      exact ⟨by decide, fun h => by cases h⟩
    · exact absurd rfl hne
  | map =>
    cases ‹Is sampleEnv (.map .str .bool) (.map _ _)›
    rw [written_bool ‹WrittenIn _ _ .bool _ S _›] at hS
    cases hS

/-- Concrete case for `C69_succeeds` and `C69_fails`. -/
example : ∃ t', Marshal sampleEnv (sampleEnc.visiting (pairShuffle true)) ⟨none, [], none, false, false⟩ 3 (.map .str .bool) (.map pairMap) = .ok t' ∧
    (bs! "{\"a\":true,\"b\":false}").Perm t' ∧ (bs! "{\"a\":true,\"b\":false}").length = t'.length :=
  C69_succeeds (E := sampleEnc.visiting (pairShuffle false)) (visiting_laws sampleEnc_laws (pairShuffle_perm _)) (pairShuffle_perm true) (Nat.zero_le 3)
    (pairMap_forth ⟨none, [], none, false, false⟩ 0)

/-- Concrete case for `C69_reordered`. -/
example : Reordered (fun s s' => s ≠ s') (bs! "{\"a\":true,\"b\":false}") (bs! "{\"b\":false,\"a\":true}") := by
  obtain ⟨t', h1, h2⟩ := C69_reordered (old' := ⟨none, [], none, false, false⟩) (visiting_laws sampleEnc_laws (pairShuffle_perm _)) (pairShuffle_perm true)
    (apart := fun s s' => s ≠ s') (fun _ _ h => h.symm) (Nat.le_refl 0) pairMap_clean
    (fun S K U m k k' n n' s s' h1 h2 h3 h4 h5 h6 h7 h8 h9 => (pairMap_apart S K U m k k' n n' s s' h1 h2 h3 h4 h5 h6 h7 h8 h9).1)
    (pairMap_forth ⟨none, [], none, false, false⟩ 0)
  have := pairMap_back ⟨none, [], none, false, false⟩ 0
  rw [show sampleEnc.visiting (pairShuffle true) = (sampleEnc.visiting (pairShuffle false)).visiting (pairShuffle true) from rfl, h1] at this
  cases this
  exact h2

theorem noOrder_members {vs : List (Val (List Byte))} (h : ∀ v ∈ vs, NoOrder v) : NoOrder (.struct vs) ∧ NoOrder (.slice vs) := by
  constructor
  · intro x hx
    cases hx with
    | self => trivial
    | struct v _ hv hx => exact h v hv x hx
  · intro x hx
    cases hx with
    | self => trivial
    | slice v _ hv hx => exact h v hv x hx

/-- Concrete case for `C69_read`: the map is read as a `map[string]interface{}`. -/
example (pools : Pools) (it : It) (x y : Val (List Byte)) :
    Unmarshal sampleEnv { sampleCfg with caseSensitive := true } pools it (bs! "{\"a\":true,\"b\":false}") (.map .str .any) x = .ok y ↔
    Unmarshal sampleEnv { sampleCfg with caseSensitive := true } pools it (bs! "{\"b\":false,\"a\":true}") (.map .str .any) x = .ok y := by
  obtain ⟨t', h1, h2⟩ := C69_read (cfg := { sampleCfg with caseSensitive := true }) (same := sampleSame) (old' := ⟨none, [], none, false, false⟩)
    (visiting_laws sampleEnc_laws (pairShuffle_perm _)) (pairShuffle_perm true) (sampleLaws _ rfl rfl rfl) sample_layout (Nat.le_refl 0) pairMap_clean
    pairMap_apart (map_orderFree _ fun _ _ h => h.1) (pairMap_forth ⟨none, [], none, false, false⟩ 0) pools it
  have := pairMap_back ⟨none, [], none, false, false⟩ 0
  rw [show sampleEnc.visiting (pairShuffle true) = (sampleEnc.visiting (pairShuffle false)).visiting (pairShuffle true) from rfl, h1] at this
  cases this
  exact h2 x y

/-- Concrete case for `C69_equal`: the list has no map at all. -/
example : Marshal sampleEnv (sampleEnc.visiting (pairShuffle true)) ⟨none, [], none, false, false⟩ 7 (.named 0) sampleList =
    .ok (bs! "{\"bs\":\"AA\",\"next\":{\"A\":-3,\"bs\":null}}") := by
  refine C69_equal sampleEnc_laws (pairShuffle_perm true) (by decide) ?_ sampleList_text
  have int : ∀ z, NoOrder (.int z : Val (List Byte)) := fun z x hx => by cases hx; trivial
  have nilSlice : NoOrder (.nilSlice : Val (List Byte)) := fun x hx => by cases hx; trivial
  have nilPtr : NoOrder (.nilPtr : Val (List Byte)) := fun x hx => by cases hx; trivial
  have ptr : ∀ v : Val (List Byte), NoOrder v → NoOrder (.ptr v) := fun v h x hx => by
    cases hx with
    | self => trivial
    | ptr _ hx => exact h x hx
  refine (noOrder_members ?_).1
  simp only [List.mem_cons, List.not_mem_nil, or_false, forall_eq_or_imp, forall_eq]
  refine ⟨int _, (noOrder_members ?_).2, ptr _ (noOrder_members ?_).1⟩
  · simp only [List.mem_cons, List.not_mem_nil, or_false, forall_eq_or_imp, forall_eq]
    exact ⟨int _, int _⟩
  · simp only [List.mem_cons, List.not_mem_nil, or_false, forall_eq_or_imp, forall_eq]
    exact ⟨int _, nilSlice, nilPtr⟩

end Jzon.Props
